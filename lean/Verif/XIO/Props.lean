import Verif.XIO.Model
import Mathlib.Tactic.Common
import Mathlib.Data.List.Nodup
/-! # Property theorems for xio (C41, C42, C75) -/
namespace Verif.XIO
open Verif.Go Verif.Go.IO

/-! ## C41: pooled readers -/

/-- A reader held by a user: its name, the bytes its source had when it was obtained, the bytes delivered since. -/
structure RHandle where
  id : Nat
  start : Bytes
  delivered : Bytes
  deriving DecidableEq

/-- The state of programs that use buffer.go:31-54: the readers, and those in use. -/
structure RSys where
  w : RWorld
  live : List RHandle

/-- What users of the pool can do, for every choice of pool, source and collector: obtain a reader for a source that is
not itself a `*bufio.Reader`, read through a reader they hold, put back a reader they hold (and stop using it). -/
inductive RStep : RSys → RSys → Prop where
  | get (s : RSys) (choice : Option Nat) (data : Bytes) (size : Int) :
      RStep s ⟨(getReader s.w choice (.plain data) size).2,
        ⟨(getReader s.w choice (.plain data) size).1, data, []⟩ :: s.live⟩
  | read (s : RSys) (i : Nat) (hi : i < s.live.length) (n k : Nat) (e : Option Err) (b b' : BReader) (d : Bytes)
      (err : Option Err) (hb : s.w.objs[s.live[i].id]? = some b) (hr : b.read n k e = some (d, err, b')) :
      RStep s ⟨{ s.w with objs := s.w.objs.set s.live[i].id b' },
        s.live.set i { s.live[i] with delivered := s.live[i].delivered ++ d }⟩
  | put (s : RSys) (i : Nat) (hi : i < s.live.length) : RStep s ⟨putReader s.w s.live[i].id, s.live.eraseIdx i⟩
  | evict (s : RSys) (i : Nat) : RStep s ⟨{ s.w with pool := s.w.pool.eraseIdx i }, s.live⟩

/-- The states that such programs can reach. -/
inductive RReach : RSys → Prop where
  | init : RReach ⟨⟨[], []⟩, []⟩
  | step {s s' : RSys} : RReach s → RStep s s' → RReach s'

/-- The reader holds exactly what is missing between `got` and `all`. -/
def Holds (b : BReader) (got all : Bytes) : Prop := ∃ rest, b.src = .plain rest ∧ got ++ b.unread ++ rest = all

theorem read_holds {b b' : BReader} {n k : Nat} {e err : Option Err} {d got all : Bytes} (h : Holds b got all)
    (hr : b.read n k e = some (d, err, b')) : Holds b' (got ++ d) all ∧ d.length ≤ n ∧ (err ≠ none → b'.unread = []) := by
  obtain ⟨rest, hs, ha⟩ := h
  unfold BReader.read at hr
  split at hr
  · rename_i hn
    split at hr
    · simp only [Option.some.injEq, Prod.mk.injEq] at hr
      obtain ⟨rfl, rfl, rfl⟩ := hr
      exact ⟨⟨rest, hs, by simpa using ha⟩, by simp, by simp⟩
    · rename_i hu
      simp only [Option.some.injEq, Prod.mk.injEq] at hr
      obtain ⟨rfl, rfl, rfl⟩ := hr
      exact ⟨⟨rest, hs, by simpa using ha⟩, by simp, fun _ => by simpa using hu⟩
  · split at hr
    · rename_i hu
      split at hr
      · simp only [Option.some.injEq, Prod.mk.injEq] at hr
        obtain ⟨rfl, rfl, rfl⟩ := hr
        exact ⟨⟨rest, hs, by simpa using ha⟩, by simp, fun _ => hu⟩
      · simp only [hs, srcRead] at hr
        rw [hu, List.append_nil] at ha
        split at hr
        · simp only [Option.some.injEq, Prod.mk.injEq] at hr
          obtain ⟨rfl, rfl, rfl⟩ := hr
          refine ⟨⟨_, rfl, ?_⟩, ?_, fun _ => hu⟩
          · simp only [hu, List.append_nil, List.append_assoc, List.take_append_drop]; exact ha
          · simp; omega
        · by_cases hd : List.take (min k b.size) rest = []
          · simp only [hd, List.isEmpty_nil, if_true] at hr
            simp only [Option.some.injEq, Prod.mk.injEq] at hr
            obtain ⟨rfl, rfl, rfl⟩ := hr
            refine ⟨⟨_, rfl, ?_⟩, by simp, fun _ => hu⟩
            have hh := List.take_append_drop (min k b.size) rest
            rw [hd, List.nil_append] at hh
            simp only [hu, List.append_nil, hh]; exact ha
          · simp only [List.isEmpty_iff, hd, if_false] at hr
            simp only [Option.some.injEq, Prod.mk.injEq] at hr
            obtain ⟨rfl, rfl, rfl⟩ := hr
            refine ⟨⟨_, rfl, ?_⟩, by simp; omega, by simp⟩
            simp only [List.append_assoc]
            rw [← List.append_assoc (List.take n _), List.take_append_drop, List.take_append_drop]; exact ha
    · simp only [Option.some.injEq, Prod.mk.injEq] at hr
      obtain ⟨rfl, rfl, rfl⟩ := hr
      refine ⟨⟨rest, hs, ?_⟩, by simp; omega, by simp⟩
      rw [List.append_assoc got, List.take_append_drop]; exact ha

/-- Proof only: part of an invariant or simulation; models no code. -/
structure RInv (s : RSys) : Prop where
  nodup : (s.live.map RHandle.id ++ s.w.pool).Nodup
  bound : ∀ x ∈ s.live.map RHandle.id ++ s.w.pool, x < s.w.objs.length
  holds : ∀ h ∈ s.live, ∃ b, s.w.objs[h.id]? = some b ∧ Holds b h.delivered h.start

theorem map_eraseIdx' {α β : Type} (f : α → β) (l : List α) (i : Nat) : (l.eraseIdx i).map f = (l.map f).eraseIdx i := by
  induction l generalizing i with
  | nil => simp
  | cons a l ih => cases i <;> simp [ih]

theorem perm_get_erase {α : Type} (l : List α) (i : Nat) (hi : i < l.length) : l.Perm (l[i] :: l.eraseIdx i) := by
  induction l generalizing i with
  | nil => simp at hi
  | cons a l ih =>
    cases i with
    | zero => simp
    | succ i =>
      simp only [List.getElem_cons_succ, List.eraseIdx_cons_succ]
      exact ((ih i (by simpa using hi)).cons a).trans (List.Perm.swap _ _ _)

theorem rinv_step {s s' : RSys} (hi : RInv s) (hs : RStep s s') : RInv s' := by
  cases hs with
  | get choice data size =>
    have fresh : RInv ⟨{ s.w with objs := s.w.objs ++ [newReader (.plain data) size] }, ⟨s.w.objs.length, data, []⟩ :: s.live⟩ := by
      refine ⟨?_, ?_, ?_⟩
      · simp only [List.map_cons, List.cons_append, List.nodup_cons]
        exact ⟨fun h => Nat.lt_irrefl _ (hi.bound _ h), hi.nodup⟩
      · intro x hx
        simp only [List.map_cons, List.cons_append, List.mem_cons] at hx
        simp only [List.length_append, List.length_singleton]
        rcases hx with rfl | hx
        · omega
        · have := hi.bound x hx; omega
      · intro h hh
        simp only [List.mem_cons] at hh
        rcases hh with rfl | hh
        · exact ⟨newReader (.plain data) size, by simp, data, rfl, by simp [newReader]⟩
        · obtain ⟨b, h1, h2⟩ := hi.holds h hh
          exact ⟨b, by rw [List.getElem?_append_left (by have := List.getElem?_eq_some_iff.mp h1; exact this.1)]; exact h1, h2⟩
    unfold getReader
    simp only
    cases choice with
    | none => exact fresh
    | some j =>
      simp only
      cases hg : s.w.pool[j]? with
      | none => exact fresh
      | some id =>
        simp only
        obtain ⟨hlt, hget⟩ := List.getElem?_eq_some_iff.mp hg
        have hperm : (s.live.map RHandle.id ++ s.w.pool).Perm (id :: (s.live.map RHandle.id ++ s.w.pool.eraseIdx j)) := by
          have h1 := perm_get_erase s.w.pool j hlt
          rw [hget] at h1
          exact (h1.append_left _).trans List.perm_middle
        have hnd := (hperm.nodup_iff).mp hi.nodup
        refine ⟨by simpa using hnd, ?_, ?_⟩
        · intro x hx
          simp only [List.length_modify]
          exact hi.bound x (hperm.mem_iff.mpr (by simpa using hx))
        · intro h hh
          simp only [List.mem_cons] at hh
          rcases hh with rfl | hh
          · have hb := hi.bound id (hperm.mem_iff.mpr (by simp))
            refine ⟨(s.w.objs[id]).reset (.plain data), ?_, data, rfl, by simp [BReader.reset]⟩
            simp [List.getElem?_eq_getElem hb]
          · obtain ⟨b, h1, h2⟩ := hi.holds h hh
            refine ⟨b, ?_, h2⟩
            have hne : id ≠ h.id := by
              rintro rfl
              simp only [List.nodup_cons] at hnd
              exact hnd.1 (List.mem_append_left _ (List.mem_map_of_mem hh))
            simp [hne, h1]
  | read i hlt n k e b b' d err hb hr =>
    have hmem : s.live[i] ∈ s.live := List.getElem_mem _
    obtain ⟨b0, h1, h2⟩ := hi.holds _ hmem
    rw [hb] at h1
    simp only [Option.some.injEq] at h1
    subst h1
    have hids : (s.live.set i { s.live[i] with delivered := s.live[i].delivered ++ d }).map RHandle.id = s.live.map RHandle.id := by
      rw [List.map_set]
      have : s.live[i].id = (s.live.map RHandle.id)[i]'(by simpa using hlt) := by simp
      simp only [this, List.set_getElem_self]
    have hbl := (List.getElem?_eq_some_iff.mp hb).1
    have hndl : (s.live.map RHandle.id).Nodup := (List.nodup_append.mp hi.nodup).1
    refine ⟨by simp only [hids]; exact hi.nodup, by simp only [hids, List.length_set]; exact hi.bound, ?_⟩
    intro h hh
    obtain ⟨j, hj, rfl⟩ := List.mem_iff_getElem.mp hh
    simp only [List.length_set] at hj
    rw [List.getElem_set]
    by_cases hij : i = j
    · subst hij
      rw [if_pos rfl]
      refine ⟨b', by simp [hbl], (read_holds h2 hr).1⟩
    · rw [if_neg hij]
      obtain ⟨b1, h3, h4⟩ := hi.holds s.live[j] (List.getElem_mem _)
      refine ⟨b1, ?_, h4⟩
      have hne : s.live[i].id ≠ s.live[j].id := by
        intro heq
        apply hij
        have := (List.Nodup.getElem_inj_iff hndl (hi := by simpa using hlt) (hj := by simpa using hj)).mp (by simpa using heq)
        exact this
      simp only [List.getElem?_set, hne, if_false]; exact h3
  | put i hlt =>
    have hperm : (s.live.map RHandle.id ++ s.w.pool).Perm ((s.live.eraseIdx i).map RHandle.id ++ (s.w.pool ++ [s.live[i].id])) := by
      have h1 := perm_get_erase (s.live.map RHandle.id) i (by simpa using hlt)
      rw [map_eraseIdx']
      refine (h1.append_right _).trans ?_
      rw [List.getElem_map, ← List.append_assoc]
      exact (List.perm_append_singleton _ _).symm
    refine ⟨hperm.nodup_iff.mp hi.nodup, ?_, ?_⟩
    · intro x hx
      simp only [putReader, List.length_modify]
      exact hi.bound x (hperm.mem_iff.mpr hx)
    · intro h hh
      have hh' : h ∈ s.live := List.mem_of_mem_eraseIdx hh
      obtain ⟨b, h1, h2⟩ := hi.holds h hh'
      refine ⟨b, ?_, h2⟩
      have hnd := hperm.nodup_iff.mp hi.nodup
      have hne : s.live[i].id ≠ h.id := by
        intro heq
        have hd := (List.nodup_append.mp hnd).2.2 _ (List.mem_map_of_mem hh) (s.live[i].id) (by simp)
        exact hd heq.symm
      simp [putReader, hne, h1]
  | evict i =>
    refine ⟨hi.nodup.sublist ((List.eraseIdx_sublist _ _).append_left _), ?_, hi.holds⟩
    intro x hx
    apply hi.bound
    rcases List.mem_append.mp hx with h | h
    · exact List.mem_append_left _ h
    · exact List.mem_append_right _ (List.mem_of_mem_eraseIdx h)

theorem rinv_reach {s : RSys} (h : RReach s) : RInv s := by
  induction h with
  | init => constructor <;> simp
  | step _ hs ih => exact rinv_step ih hs

/-- C41, for sources that are not themselves a `*bufio.Reader`: in every state of every history, what a held reader has
delivered is exactly a prefix of its own source's bytes, the missing bytes being those buffered in it and those still
in its source. Missing: sources that are `*bufio.Reader`s, where it is false (`C41_wrap_refuted`). -/
theorem C41_reader_partial (s : RSys) (hs : RReach s) (h : RHandle) (hh : h ∈ s.live) :
    ∃ b rest, s.w.objs[h.id]? = some b ∧ b.src = .plain rest ∧ h.delivered ++ b.unread ++ rest = h.start := by
  obtain ⟨b, h1, rest, h2, h3⟩ := (rinv_reach hs).holds h hh
  exact ⟨b, rest, h1, h2, h3⟩

/-- C41: a read reports an error only after everything buffered has been delivered: when the source had nothing left
either, the user has received all of it. A held reader never panics on `Read`. -/
theorem C41_read (s : RSys) (hs : RReach s) (h : RHandle) (hh : h ∈ s.live) (b : BReader)
    (hb : s.w.objs[h.id]? = some b) (n k : Nat) (e : Option Err) :
    ∃ d err b', b.read n k e = some (d, err, b') ∧ d.length ≤ n ∧
      (err ≠ none → b'.src = .plain [] → h.delivered ++ d = h.start) := by
  obtain ⟨b0, h1, h2⟩ := (rinv_reach hs).holds h hh
  rw [hb] at h1
  simp only [Option.some.injEq] at h1
  subst h1
  have h2' := h2
  obtain ⟨rest, hsrc, _⟩ := h2'
  have hne : b.read n k e ≠ none := by
    unfold BReader.read
    split
    · split <;> simp
    · split
      · split
        · simp
        · simp only [hsrc]
          split
          · simp
          · split <;> simp
      · simp
  cases hr : b.read n k e with
  | none => exact absurd hr hne
  | some x =>
    obtain ⟨d, err, b'⟩ := x
    obtain ⟨⟨rest', h3, h4⟩, h5, h6⟩ := read_holds h2 hr
    refine ⟨d, err, b', rfl, h5, ?_⟩
    intro he hp
    rw [h3] at hp
    simp only [Src.plain.injEq] at hp
    rw [h6 he, hp] at h4
    simpa using h4

/-- Non-vacuous: a reader buffers two more bytes than its user takes, is put back and reused for another source. -/
example : ∃ s, RReach s ∧ s.live = [⟨0, [9], [9]⟩] := by
  have h1 := RReach.step .init (RStep.get ⟨⟨[], []⟩, []⟩ none [1, 2, 3] 16)
  have h2 := RReach.step h1 (RStep.read _ 0 (by simp) 1 3 none ⟨[], 16, .plain [1, 2, 3], none⟩ ⟨[2, 3], 16, .plain [], none⟩ [1] none rfl (by decide))
  have h3 := RReach.step h2 (RStep.put _ 0 (by simp))
  have h4 := RReach.step h3 (RStep.get _ (some 0) [9] 16)
  have h5 := RReach.step h4 (RStep.read _ 0 (by simp) 1 3 none ⟨[], 16, .plain [9], none⟩ ⟨[], 16, .plain [], none⟩ [9] none rfl (by decide))
  exact ⟨_, h5, rfl⟩

/-- C41 is false when the source is itself a `*bufio.Reader`: object 0 is a user's own reader for `[1]`. With an empty
pool `GetBufferReader(own)` returns the very same object; putting it back resets the user's reader and pools it; the
next `GetBufferReader` for `[2]` hands the same object out, so the first user's own reader now yields `[2]`. -/
theorem C41_wrap_refuted :
    let w0 : RWorld := ⟨[newReader (.plain [1]) 4096], []⟩
    let (id, w1) := getReader w0 none (.buffered 0) 4096
    let w2 := putReader w1 id
    let (id', w3) := getReader w2 (some 0) (.plain [2]) 4096
    id = 0 ∧ id' = 0 ∧ (w3.objs[0]?.bind (fun b => (b.read 1 1 none).map (·.1))) = some [2] := by
  refine ⟨rfl, rfl, ?_⟩
  decide

/-- C75 is false: `GetBufferReaderSize` ignores the size when the pool is not empty. -/
theorem C75_size_refuted :
    let w0 := putReader (getReader ⟨[], []⟩ none (.plain []) 16).2 0
    let (id, w1) := getReader w0 (some 0) (.plain []) 65536
    w1.objs[id]?.map BReader.size = some 16 := by decide

/-- C75, what holds: with an empty pool the buffer has at least the requested size (and at least 16 bytes). -/
theorem C75_size_partial (w : RWorld) (data : Bytes) (size : Int) (hp : w.pool = []) (choice : Option Nat) :
    ∃ b, (getReader w choice (.plain data) size).2.objs[(getReader w choice (.plain data) size).1]? = some b ∧
      size ≤ b.size ∧ 16 ≤ b.size := by
  have key : getReader w choice (.plain data) size = (w.objs.length, { w with objs := w.objs ++ [newReader (.plain data) size] }) := by
    unfold getReader
    cases choice <;> simp [hp]
  rw [key]
  refine ⟨newReader (.plain data) size, by simp, ?_, ?_⟩ <;> simp only [newReader] <;> omega

example : ((getReader ⟨[], []⟩ none (.plain [1]) 100).2.objs[0]?).map (·.size) = some 100 := rfl

/-- C75, exactly: a reader taken from the pool keeps the buffer it was made with, whatever size is asked for; a new one has the requested size, but
at least 16. -/
theorem C75_exact (w : RWorld) (data : Bytes) (size : Int) (choice : Option Nat) :
    (∀ i id b, choice = some i → w.pool[i]? = some id → w.objs[id]? = some b →
      ∃ b', (getReader w choice (.plain data) size).2.objs[(getReader w choice (.plain data) size).1]? = some b' ∧ b'.size = b.size) ∧
    ((∀ i, choice = some i → w.pool[i]? = none) →
      ∃ b, (getReader w choice (.plain data) size).2.objs[(getReader w choice (.plain data) size).1]? = some b ∧ (b.size : Int) = max size 16) := by
  constructor
  · rintro i id b rfl hp hb
    refine ⟨b.reset (.plain data), ?_, rfl⟩
    simp [getReader, hp, hb]
  · intro h
    have key : getReader w choice (.plain data) size = (w.objs.length, { w with objs := w.objs ++ [newReader (.plain data) size] }) := by
      cases choice with
      | none => rfl
      | some i => simp [getReader, h i rfl]
    rw [key]
    refine ⟨newReader (.plain data) size, by simp, ?_⟩
    simp only [newReader]; omega

example : ((getReader ⟨[⟨[], 32, .nil, none⟩], [0]⟩ (some 0) (.plain [1]) 100).2.objs[0]?).map (·.size) = some 32 := rfl

/-! ## C42: pooled writers -/

/-- A writer held by a user: its name, the destination's content when it was obtained, the bytes written since, and
whether every call so far reported success. -/
structure WHandle where
  id : Nat
  start : Bytes
  written : Bytes
  ok : Bool

/-- The state of programs that use buffer.go:59-82: the writers, and those in use. -/
structure WSys where
  w : WWorld
  live : List WHandle

/-- What users of the pool can do: obtain a writer (buffer.go:59-76), write, flush, put it back (79-82). -/
inductive WStep : WSys → WSys → Prop where
  | get (s : WSys) (choice : Option Nat) (d : Writer) (size : Int) :
      WStep s ⟨(getWriter s.w choice d size).2, ⟨(getWriter s.w choice d size).1, d.out, [], true⟩ :: s.live⟩
  | write (s : WSys) (i : Nat) (hi : i < s.live.length) (p : Bytes) (b b' : BWriter) (err : Option Err)
      (hb : s.w.objs[s.live[i].id]? = some b) (hr : b.write p = some (err, b')) :
      WStep s ⟨{ s.w with objs := s.w.objs.set s.live[i].id b' },
        s.live.set i { s.live[i] with written := s.live[i].written ++ p, ok := s.live[i].ok && err.isNone }⟩
  | flush (s : WSys) (i : Nat) (hi : i < s.live.length) (b b' : BWriter) (err : Option Err)
      (hb : s.w.objs[s.live[i].id]? = some b) (hr : b.flush = some (err, b')) :
      WStep s ⟨{ s.w with objs := s.w.objs.set s.live[i].id b' },
        s.live.set i { s.live[i] with ok := s.live[i].ok && err.isNone }⟩
  | put (s : WSys) (i : Nat) (hi : i < s.live.length) : WStep s ⟨putWriter s.w s.live[i].id, s.live.eraseIdx i⟩
  | evict (s : WSys) (i : Nat) : WStep s ⟨{ s.w with pool := s.w.pool.eraseIdx i }, s.live⟩

/-- The states that such programs can reach. -/
inductive WReach : WSys → Prop where
  | init : WReach ⟨⟨[], []⟩, []⟩
  | step {s s' : WSys} : WReach s → WStep s s' → WReach s'

/-- The destination has a prefix of `all`; without error, what is missing (up to the tail `p` not handed over yet) is
exactly what is buffered, and the buffer is not over-full. -/
structure WHolds (b : BWriter) (p all : Bytes) : Prop where
  dst : ∃ d, b.dst = some d ∧ d.out <+: all ∧ (b.err = none → d.out ++ b.buf ++ p = all)
  fits : b.err = none → b.buf.length ≤ b.size
  pos : 0 < b.size

theorem flush_holds {b b' : BWriter} {err : Option Err} {p all : Bytes} (h : WHolds b p all)
    (hr : b.flush = some (err, b')) :
    WHolds b' p all ∧ b'.err = err ∧ (err = none → b'.buf = []) ∧ (b.err ≠ none → err ≠ none) ∧ b'.size = b.size := by
  obtain ⟨⟨d, h1, h2, h3⟩, h4, h5⟩ := h
  unfold BWriter.flush at hr
  cases he : b.err with
  | some e =>
    simp only [he, Option.some.injEq, Prod.mk.injEq] at hr
    obtain ⟨rfl, rfl⟩ := hr
    exact ⟨⟨⟨d, h1, h2, h3⟩, h4, h5⟩, he, by simp, by simp, rfl⟩
  | none =>
    simp only [he] at hr
    split at hr
    · rename_i hb
      simp only [Option.some.injEq, Prod.mk.injEq] at hr
      obtain ⟨rfl, rfl⟩ := hr
      exact ⟨⟨⟨d, h1, h2, h3⟩, h4, h5⟩, he, fun _ => hb, by simp, rfl⟩
    · simp only [h1, Writer.write] at hr
      have h3' := h3 he
      cases hf : d.fail d.calls with
      | none =>
        simp only [hf, Option.some.injEq, Prod.mk.injEq] at hr
        obtain ⟨rfl, rfl⟩ := hr
        refine ⟨⟨⟨_, rfl, ?_, ?_⟩, by simp, h5⟩, rfl, by simp, by simp, rfl⟩
        · exact ⟨p, h3'⟩
        · intro _; simpa using h3'
      | some e =>
        simp only [hf, Option.some.injEq, Prod.mk.injEq] at hr
        obtain ⟨rfl, rfl⟩ := hr
        refine ⟨⟨⟨_, rfl, ?_, by simp⟩, by simp, h5⟩, rfl, by simp, by simp, rfl⟩
        refine ⟨b.buf.drop (d.part d.calls) ++ p, ?_⟩
        simp only [List.append_assoc]
        rw [← List.append_assoc (List.take _ _), List.take_append_drop, ← List.append_assoc]
        exact h3'

theorem flush_total {b : BWriter} {p all : Bytes} (h : WHolds b p all) : b.flush ≠ none := by
  obtain ⟨⟨d, h1, _, _⟩, _, _⟩ := h
  unfold BWriter.flush
  cases b.err with
  | some e => simp
  | none =>
    simp only [h1]
    split
    · simp
    · generalize d.write b.buf = q; obtain ⟨d', _ | e⟩ := q <;> simp

/-- The loop of `Write` keeps the accounting; `all` counts everything up to the end of the given `p`. -/
theorem writeLoop_holds : ∀ (f : Nat) (b : BWriter) (p all : Bytes), WHolds b p all →
    ∃ p' b', BWriter.writeLoop f b p = some (p', b') ∧ WHolds b' p' all ∧ b'.size = b.size ∧ (b.err ≠ none → b'.err ≠ none) := by
  intro f
  induction f with
  | zero => intro b p all h; exact ⟨p, b, rfl, h, rfl, id⟩
  | succ f ih =>
    intro b p all h
    unfold BWriter.writeLoop
    split
    · rename_i hc
      split
      · rename_i hb
        obtain ⟨⟨d, h1, h2, h3⟩, h4, h5⟩ := h
        have h3' := h3 hc.2
        rw [hb, List.append_nil] at h3'
        simp only [h1, Writer.write]
        cases hf : d.fail d.calls with
        | none =>
          simp only
          obtain ⟨p', b', e1, e2, e3, e4⟩ := ih { b with dst := some { d with out := d.out ++ p, calls := d.calls + 1 } } [] all
            ⟨⟨_, rfl, ⟨[], by simpa using h3'⟩, fun _ => by simp only [hb]; simpa using h3'⟩, fun _ => by simp [hb], h5⟩
          exact ⟨p', b', e1, e2, e3, fun h => absurd hc.2 h⟩
        | some e =>
          simp only
          obtain ⟨p', b', e1, e2, e3, e4⟩ := ih { b with dst := some { d with out := d.out ++ p.take (d.part d.calls), calls := d.calls + 1 }, err := some e } (p.drop (d.part d.calls)) all
            ⟨⟨_, rfl, ⟨p.drop (d.part d.calls), by simpa using h3'⟩, by simp⟩, by simp, h5⟩
          exact ⟨p', b', e1, e2, e3, fun h => absurd hc.2 h⟩
      · have hw : WHolds { b with buf := b.buf ++ p.take (b.size - b.buf.length) } (p.drop (b.size - b.buf.length)) all := by
          obtain ⟨⟨d, h1, h2, h3⟩, h4, h5⟩ := h
          refine ⟨⟨d, h1, h2, fun he => ?_⟩, fun he => ?_, h5⟩
          · simp only [List.append_assoc, List.take_append_drop]
            rw [← List.append_assoc]; exact h3 he
          · have := h4 he; simp; omega
        simp only
        cases hfl : ({ b with buf := b.buf ++ p.take (b.size - b.buf.length) } : BWriter).flush with
        | none => exact absurd hfl (flush_total hw)
        | some x =>
          obtain ⟨err, b1⟩ := x
          obtain ⟨g1, g2, g3, g4, g5⟩ := flush_holds hw hfl
          obtain ⟨p', b', e1, e2, e3, e4⟩ := ih b1 _ all g1
          exact ⟨p', b', e1, e2, by rw [e3, g5], fun h => absurd hc.2 h⟩
    · exact ⟨p, b, rfl, h, rfl, id⟩

/-- Three rounds are enough: afterwards the rest fits, or there is an error. (So the loop bound of the model is no
restriction.) -/
theorem writeLoop_done (b : BWriter) (p all : Bytes) (h : WHolds b p all) (p' : Bytes) (b' : BWriter)
    (hr : BWriter.writeLoop 3 b p = some (p', b')) : b'.err ≠ none ∨ p'.length ≤ b'.size - b'.buf.length := by
  have stop : ∀ (f : Nat) (b : BWriter) (p : Bytes), ¬ (p.length > b.size - b.buf.length ∧ b.err = none) →
      BWriter.writeLoop f b p = some (p, b) := by
    intro f b p hn
    cases f with
    | zero => rfl
    | succ f => unfold BWriter.writeLoop; rw [if_neg hn]
  have stopped : ∀ (b : BWriter) (p : Bytes), ¬ (p.length > b.size - b.buf.length ∧ b.err = none) →
      b.err ≠ none ∨ p.length ≤ b.size - b.buf.length := by
    intro b p hn
    by_cases he : b.err = none
    · right
      rcases Nat.lt_or_ge (b.size - b.buf.length) p.length with h | h
      · exact absurd ⟨h, he⟩ hn
      · exact h
    · left; exact he
  -- with an empty buffer one round is enough
  have empty : ∀ (f : Nat) (b : BWriter) (p : Bytes) (p' : Bytes) (b' : BWriter), b.buf = [] →
      BWriter.writeLoop (f + 1) b p = some (p', b') → b'.err ≠ none ∨ p'.length ≤ b'.size - b'.buf.length := by
    intro f b p p' b' hb hr
    unfold BWriter.writeLoop at hr
    split at hr
    · simp only [hb] at hr
      cases hd : b.dst with
      | none => simp [hd] at hr
      | some d =>
        simp only [hd, Writer.write] at hr
        cases hf : d.fail d.calls with
        | none =>
          simp only [hf] at hr
          rw [stop f _ _ (by simp)] at hr
          simp only [Option.some.injEq, Prod.mk.injEq] at hr
          obtain ⟨rfl, rfl⟩ := hr
          right; simp
        | some e =>
          simp only [hf] at hr
          rw [stop f _ _ (by simp)] at hr
          simp only [Option.some.injEq, Prod.mk.injEq] at hr
          obtain ⟨rfl, rfl⟩ := hr
          left; simp
    · rename_i hn
      simp only [Option.some.injEq, Prod.mk.injEq] at hr
      obtain ⟨rfl, rfl⟩ := hr
      exact stopped _ _ hn
  unfold BWriter.writeLoop at hr
  split at hr
  · rename_i hc
    split at hr
    · rename_i hb
      exact empty 2 b p p' b' hb (by unfold BWriter.writeLoop; rw [if_pos hc, if_pos hb]; exact hr)
    · have hw : WHolds { b with buf := b.buf ++ p.take (b.size - b.buf.length) } (p.drop (b.size - b.buf.length)) all := by
        obtain ⟨⟨d, h1, h2, h3⟩, h4, h5⟩ := h
        refine ⟨⟨d, h1, h2, fun he => ?_⟩, fun he => ?_, h5⟩
        · simp only [List.append_assoc, List.take_append_drop]
          rw [← List.append_assoc]; exact h3 he
        · have := h4 he; simp; omega
      simp only at hr
      cases hfl : ({ b with buf := b.buf ++ p.take (b.size - b.buf.length) } : BWriter).flush with
      | none => rw [hfl] at hr; simp at hr
      | some x =>
        obtain ⟨err, b1⟩ := x
        rw [hfl] at hr
        simp only at hr
        obtain ⟨g1, g2, g3, g4, g5⟩ := flush_holds hw hfl
        by_cases he : err = none
        · exact empty 1 b1 _ p' b' (g3 he) hr
        · rw [stop 2 b1 _ (by rw [g2]; simp [he])] at hr
          simp only [Option.some.injEq, Prod.mk.injEq] at hr
          obtain ⟨rfl, rfl⟩ := hr
          left; rw [g2]; exact he
  · rename_i hn
    simp only [Option.some.injEq, Prod.mk.injEq] at hr
    obtain ⟨rfl, rfl⟩ := hr
    exact stopped _ _ hn

theorem write_holds {b : BWriter} {all : Bytes} (p : Bytes) (h : WHolds b [] all) :
    ∃ err b', b.write p = some (err, b') ∧ WHolds b' [] (all ++ p) ∧ b'.err = err ∧ (b.err ≠ none → err ≠ none) := by
  have h0 : WHolds b p (all ++ p) := by
    obtain ⟨⟨d, h1, h2, h3⟩, h4, h5⟩ := h
    refine ⟨⟨d, h1, h2.trans (List.prefix_append _ _), fun he => ?_⟩, h4, h5⟩
    have := h3 he
    rw [List.append_nil] at this
    rw [this]
  obtain ⟨p', b', e1, e2, e3, e4⟩ := writeLoop_holds 3 b p _ h0
  have e5 := writeLoop_done b p _ h0 p' b' e1
  unfold BWriter.write
  rw [e1]
  simp only
  cases he : b'.err with
  | some e =>
    refine ⟨_, _, rfl, ⟨?_, ?_, e2.pos⟩, he, by simp⟩
    · obtain ⟨d, h1, h2, h3⟩ := e2.dst
      exact ⟨d, h1, h2, by rw [he]; simp⟩
    · rw [he]; simp
  | none =>
    refine ⟨_, _, rfl, ⟨?_, ?_, e2.pos⟩, rfl, fun h' => absurd he (e4 h')⟩
    · obtain ⟨d, h1, h2, h3⟩ := e2.dst
      refine ⟨d, h1, h2, fun _ => ?_⟩
      simp only [List.append_nil]
      rw [← List.append_assoc]
      exact h3 he
    · intro _
      have := e2.fits he
      rcases e5 with h | h
      · exact absurd he h
      · simp; omega

/-- Proof only: part of an invariant or simulation; models no code. -/
structure WInv (s : WSys) : Prop where
  nodup : (s.live.map WHandle.id ++ s.w.pool).Nodup
  bound : ∀ x ∈ s.live.map WHandle.id ++ s.w.pool, x < s.w.objs.length
  size : ∀ b ∈ s.w.objs, 0 < b.size
  holds : ∀ h ∈ s.live, ∃ b, s.w.objs[h.id]? = some b ∧ WHolds b [] (h.start ++ h.written) ∧ (h.ok = true ↔ b.err = none)

theorem whandle_update {s : WSys} (hi : WInv s) (i : Nat) (hlt : i < s.live.length) (b b' : BWriter) (h' : WHandle)
    (hid : h'.id = s.live[i].id) (hb : s.w.objs[s.live[i].id]? = some b)
    (hh' : WHolds b' [] (h'.start ++ h'.written)) (hok : h'.ok = true ↔ b'.err = none) :
    WInv ⟨{ s.w with objs := s.w.objs.set s.live[i].id b' }, s.live.set i h'⟩ := by
  have hids : (s.live.set i h').map WHandle.id = s.live.map WHandle.id := by
    rw [List.map_set, hid]
    have : s.live[i].id = (s.live.map WHandle.id)[i]'(by simpa using hlt) := by simp
    simp only [this, List.set_getElem_self]
  have hbl := (List.getElem?_eq_some_iff.mp hb).1
  have hndl : (s.live.map WHandle.id).Nodup := (List.nodup_append.mp hi.nodup).1
  refine ⟨by simp only [hids]; exact hi.nodup, by simp only [hids, List.length_set]; exact hi.bound, ?_, ?_⟩
  · intro x hx
    rcases List.mem_or_eq_of_mem_set hx with h | rfl
    · exact hi.size x h
    · exact hh'.pos
  intro h hh
  obtain ⟨j, hj, rfl⟩ := List.mem_iff_getElem.mp hh
  simp only [List.length_set] at hj
  rw [List.getElem_set]
  by_cases hij : i = j
  · subst hij
    rw [if_pos rfl]
    refine ⟨b', by simp [hbl, hid], hh', hok⟩
  · rw [if_neg hij]
    obtain ⟨b1, h3, h4⟩ := hi.holds s.live[j] (List.getElem_mem _)
    refine ⟨b1, ?_, h4⟩
    have hne : s.live[i].id ≠ s.live[j].id := by
      intro heq
      apply hij
      exact (List.Nodup.getElem_inj_iff hndl (hi := by simpa using hlt) (hj := by simpa using hj)).mp (by simpa using heq)
    simp only [List.getElem?_set, hne, if_false]; exact h3

theorem winv_step {s s' : WSys} (hi : WInv s) (hs : WStep s s') : WInv s' := by
  cases hs with
  | get choice d size =>
    have hsz : 0 < (newWriter (some d) size).size := by
      simp only [newWriter]; split <;> omega
    have fresh : WInv ⟨{ s.w with objs := s.w.objs ++ [newWriter (some d) size] }, ⟨s.w.objs.length, d.out, [], true⟩ :: s.live⟩ := by
      refine ⟨?_, ?_, ?_, ?_⟩
      · simp only [List.map_cons, List.cons_append, List.nodup_cons]
        exact ⟨fun h => Nat.lt_irrefl _ (hi.bound _ h), hi.nodup⟩
      · intro x hx
        simp only [List.map_cons, List.cons_append, List.mem_cons] at hx
        simp only [List.length_append, List.length_singleton]
        rcases hx with rfl | hx
        · omega
        · have := hi.bound x hx; omega
      · intro b hb
        simp only [List.mem_append, List.mem_singleton] at hb
        rcases hb with hb | rfl
        · exact hi.size b hb
        · exact hsz
      · intro h hh
        simp only [List.mem_cons] at hh
        rcases hh with rfl | hh
        · exact ⟨newWriter (some d) size, by simp, ⟨⟨d, rfl, by simp, by simp [newWriter]⟩, by simp [newWriter], hsz⟩, by simp [newWriter]⟩
        · obtain ⟨b, h1, h2⟩ := hi.holds h hh
          exact ⟨b, by rw [List.getElem?_append_left (by have := List.getElem?_eq_some_iff.mp h1; exact this.1)]; exact h1, h2⟩
    unfold getWriter
    simp only
    cases choice with
    | none => exact fresh
    | some j =>
      simp only
      cases hg : s.w.pool[j]? with
      | none => exact fresh
      | some id =>
        simp only
        obtain ⟨hlt, hget⟩ := List.getElem?_eq_some_iff.mp hg
        have hperm : (s.live.map WHandle.id ++ s.w.pool).Perm (id :: (s.live.map WHandle.id ++ s.w.pool.eraseIdx j)) := by
          have h1 := perm_get_erase s.w.pool j hlt
          rw [hget] at h1
          exact (h1.append_left _).trans List.perm_middle
        have hnd := (hperm.nodup_iff).mp hi.nodup
        refine ⟨by simpa using hnd, ?_, ?_, ?_⟩
        · intro x hx
          simp only [List.length_modify]
          exact hi.bound x (hperm.mem_iff.mpr (by simpa using hx))
        · intro b hb
          obtain ⟨m, hm, rfl⟩ := List.mem_iff_getElem.mp hb
          rw [List.length_modify] at hm
          rw [List.getElem_modify]
          have := hi.size _ (List.getElem_mem hm)
          split <;> simpa [BWriter.reset] using this
        · intro h hh
          simp only [List.mem_cons] at hh
          rcases hh with rfl | hh
          · have hb := hi.bound id (hperm.mem_iff.mpr (by simp))
            refine ⟨(s.w.objs[id]).reset (some d), ?_, ⟨⟨d, rfl, by simp, by simp [BWriter.reset]⟩, by simp [BWriter.reset], ?_⟩, by simp [BWriter.reset]⟩
            · simp [List.getElem?_eq_getElem hb]
            · exact hi.size s.w.objs[id] (List.getElem_mem hb)
          · obtain ⟨b, h1, h2⟩ := hi.holds h hh
            refine ⟨b, ?_, h2⟩
            have hne : id ≠ h.id := by
              rintro rfl
              simp only [List.nodup_cons] at hnd
              exact hnd.1 (List.mem_append_left _ (List.mem_map_of_mem hh))
            simp [hne, h1]
  | write i hlt p b b' err hb hr =>
    obtain ⟨b0, h1, h2, h3⟩ := hi.holds s.live[i] (List.getElem_mem _)
    rw [hb] at h1
    simp only [Option.some.injEq] at h1
    subst h1
    obtain ⟨err', b'', e1, e2, e3, e4⟩ := write_holds p h2
    rw [hr] at e1
    simp only [Option.some.injEq, Prod.mk.injEq] at e1
    obtain ⟨rfl, rfl⟩ := e1
    refine whandle_update hi i hlt b b' _ rfl hb (by simpa [List.append_assoc] using e2) ?_
    simp only [Bool.and_eq_true, h3, Option.isNone_iff_eq_none, e3]
    constructor
    · exact fun h => h.2
    · intro h; exact ⟨by by_contra hc; exact e4 hc h, h⟩
  | flush i hlt b b' err hb hr =>
    obtain ⟨b0, h1, h2, h3⟩ := hi.holds s.live[i] (List.getElem_mem _)
    rw [hb] at h1
    simp only [Option.some.injEq] at h1
    subst h1
    obtain ⟨e2, e3, e5, e4, _⟩ := flush_holds h2 hr
    refine whandle_update hi i hlt b b' _ rfl hb e2 ?_
    simp only [Bool.and_eq_true, h3, Option.isNone_iff_eq_none, e3]
    constructor
    · exact fun h => h.2
    · intro h; exact ⟨by by_contra hc; exact e4 hc h, h⟩
  | put i hlt =>
    have hperm : (s.live.map WHandle.id ++ s.w.pool).Perm ((s.live.eraseIdx i).map WHandle.id ++ (s.w.pool ++ [s.live[i].id])) := by
      have h1 := perm_get_erase (s.live.map WHandle.id) i (by simpa using hlt)
      rw [map_eraseIdx']
      refine (h1.append_right _).trans ?_
      rw [List.getElem_map, ← List.append_assoc]
      exact (List.perm_append_singleton _ _).symm
    refine ⟨hperm.nodup_iff.mp hi.nodup, ?_, ?_, ?_⟩
    · intro x hx
      simp only [putWriter, List.length_modify]
      exact hi.bound x (hperm.mem_iff.mpr hx)
    · intro b hb
      obtain ⟨m, hm, rfl⟩ := List.mem_iff_getElem.mp hb
      simp only [putWriter, List.length_modify] at hm
      simp only [putWriter, List.getElem_modify]
      have := hi.size _ (List.getElem_mem hm)
      split <;> simpa [BWriter.reset] using this
    · intro h hh
      have hh' : h ∈ s.live := List.mem_of_mem_eraseIdx hh
      obtain ⟨b, h1, h2⟩ := hi.holds h hh'
      refine ⟨b, ?_, h2⟩
      have hnd := hperm.nodup_iff.mp hi.nodup
      have hne : s.live[i].id ≠ h.id := by
        intro heq
        have hd := (List.nodup_append.mp hnd).2.2 _ (List.mem_map_of_mem hh) (s.live[i].id) (by simp)
        exact hd heq.symm
      simp [putWriter, hne, h1]
  | evict i =>
    refine ⟨hi.nodup.sublist ((List.eraseIdx_sublist _ _).append_left _), ?_, hi.size, hi.holds⟩
    intro x hx
    apply hi.bound
    rcases List.mem_append.mp hx with h | h
    · exact List.mem_append_left _ h
    · exact List.mem_append_right _ (List.mem_of_mem_eraseIdx h)

theorem winv_reach {s : WSys} (h : WReach s) : WInv s := by
  induction h with
  | init => constructor <;> simp
  | step _ hs ih => exact winv_step ih hs

/-- C42: in every state of every history the destination of a held writer has received exactly a prefix of what its
user wrote since obtaining it, after what it contained then; as long as no call failed, the missing bytes are exactly
those in the buffer. -/
theorem C42_writer (s : WSys) (hs : WReach s) (h : WHandle) (hh : h ∈ s.live) :
    ∃ b d, s.w.objs[h.id]? = some b ∧ b.dst = some d ∧ d.out <+: h.start ++ h.written ∧
      (h.ok = true → d.out ++ b.buf = h.start ++ h.written) := by
  obtain ⟨b, h1, ⟨⟨d, h2, h3, h4⟩, _, _⟩, h5⟩ := (winv_reach hs).holds h hh
  exact ⟨b, d, h1, h2, h3, fun hok => by simpa using h4 (h5.mp hok)⟩

/-- C42: `Flush` on a held writer never panics; if it returns nil the destination holds exactly what it held when the
writer was obtained followed by everything written since. -/
theorem C42_flush (s : WSys) (hs : WReach s) (h : WHandle) (hh : h ∈ s.live) (b : BWriter)
    (hb : s.w.objs[h.id]? = some b) :
    ∃ err b', b.flush = some (err, b') ∧ (err = none → ∃ d, b'.dst = some d ∧ d.out = h.start ++ h.written) ∧
      (err = none → h.ok = true) := by
  obtain ⟨b0, h1, h2, h3⟩ := (winv_reach hs).holds h hh
  rw [hb] at h1
  simp only [Option.some.injEq] at h1
  subst h1
  cases hf : b.flush with
  | none => exact absurd hf (flush_total h2)
  | some x =>
    obtain ⟨err, b'⟩ := x
    obtain ⟨⟨⟨d, g1, g2, g3⟩, _, _⟩, e3, e5, e4, _⟩ := flush_holds h2 hf
    refine ⟨err, b', rfl, ?_, ?_⟩
    · intro he
      refine ⟨d, g1, ?_⟩
      have := g3 (by rw [e3, he])
      rw [e5 he] at this
      simpa using this
    · intro he
      rw [h3]
      by_contra hc
      exact e4 hc he

/-- Non-vacuous: unflushed bytes of a first user are discarded and do not reach the second one's destination. -/
example : ∃ s b d, WReach s ∧ s.live = [⟨0, [7], [5], true⟩] ∧ s.w.objs[0]? = some b ∧ b.dst = some d ∧ d.out = [7, 5] := by
  have h1 := WReach.step .init (WStep.get ⟨⟨[], []⟩, []⟩ none (memWriter []) 8)
  have h2 := WReach.step h1 (WStep.write _ 0 (by simp) [1, 2] _ _ none rfl rfl)
  have h3 := WReach.step h2 (WStep.put _ 0 (by simp))
  have h4 := WReach.step h3 (WStep.get _ (some 0) (memWriter [7]) 8)
  have h5 := WReach.step h4 (WStep.write _ 0 (by simp) [5] _ _ none rfl rfl)
  have h6 := WReach.step h5 (WStep.flush _ 0 (by simp) _ _ none rfl rfl)
  exact ⟨_, _, _, h6, rfl, rfl, rfl, rfl⟩

end Verif.XIO

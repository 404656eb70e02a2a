import Verif.XIO.Chain
import Verif.XIO.Props
import Mathlib.Data.List.Perm.Subperm
/-! # Property theorems for xio with buffered sources and destinations (C96, C97, C98) -/
namespace Verif.XIO
open Verif.Go Verif.Go.IO

/-! ## Specification: the bytes of a chain -/

/-- `Yields objs s l ids`: the source `s` still has exactly the bytes `l`; `ids` are the readers of the chain, outermost first. What a reader has
buffered comes before what its source still has. -/
inductive Yields (objs : List BReader) : Src → Bytes → List Nat → Prop where
  | plain (rest : Bytes) : Yields objs (.plain rest) rest []
  | buffered {id : Nat} {b : BReader} {r : Bytes} {ids : List Nat} : objs[id]? = some b → Yields objs b.src r ids → id ∉ ids →
      Yields objs (.buffered id) (b.unread ++ r) (id :: ids)

/-- `Emits objs d a ids`: what has been accepted for the destination `d` is `a`: first what has arrived at the plain destination at the end of the
chain, then what the writers `ids` of the chain have buffered, the outermost last. -/
inductive Emits (objs : List CWriter) : Dst → Bytes → List Nat → Prop where
  | plain (w : Writer) : Emits objs (.plain w) w.out []
  | buffered {id : Nat} {b : CWriter} {r : Bytes} {ids : List Nat} : objs[id]? = some b → b.b.buf.length ≤ b.b.size →
      Emits objs b.dst r ids → id ∉ ids → Emits objs (.buffered id) (r ++ b.b.buf) (id :: ids)

/-! ## Readers -/

theorem Yields.congr {objs objs' : List BReader} {s : Src} {l : Bytes} {ids : List Nat} (h : Yields objs s l ids)
    (he : ∀ j ∈ ids, objs'[j]? = objs[j]?) : Yields objs' s l ids := by
  induction h with
  | plain rest => exact .plain rest
  | buffered hb _ hn ih => exact .buffered (by rw [he _ List.mem_cons_self]; exact hb) (ih fun j hj => he j (List.mem_cons_of_mem _ hj)) hn

theorem Yields.nodup {objs : List BReader} {s : Src} {l : Bytes} {ids : List Nat} (h : Yields objs s l ids) : ids.Nodup := by
  induction h with
  | plain => exact List.nodup_nil
  | buffered _ _ hn ih => exact List.nodup_cons.mpr ⟨hn, ih⟩

theorem Yields.bound {objs : List BReader} {s : Src} {l : Bytes} {ids : List Nat} (h : Yields objs s l ids) : ∀ j ∈ ids, j < objs.length := by
  induction h with
  | plain => simp
  | buffered hb _ _ ih =>
    intro j hj
    rcases List.mem_cons.mp hj with rfl | hj
    · exact (List.getElem?_eq_some_iff.mp hb).1
    · exact ih j hj

theorem length_le_of_nodup {n : Nat} {ids : List Nat} (hn : ids.Nodup) (hb : ∀ j ∈ ids, j < n) : ids.length ≤ n := by
  simpa using (List.Nodup.subperm (l₂ := List.range n) hn fun j hj => List.mem_range.mpr (hb j hj)).length_le

theorem Yields.depth {objs : List BReader} {s : Src} {l : Bytes} {ids : List Nat} (h : Yields objs s l ids) : ids.length ≤ objs.length :=
  length_le_of_nodup h.nodup h.bound

theorem getElem?_set_of_ne {α : Type} (l : List α) {i j : Nat} (x : α) (h : j ≠ i) : (l.set i x)[j]? = l[j]? := by
  rw [List.getElem?_set_ne (Ne.symm h)]

theorem read_ne_none {b : BReader} {rest : Bytes} (hs : b.src = .plain rest) (n k : Nat) (e : Option Err) : b.read n k e ≠ none := by
  unfold BReader.read
  split
  · split <;> simp
  · split
    · split
      · simp
      · simp only [hs]
        split
        · simp
        · split <;> simp
    · simp

theorem readAt_spec (depth : Nat) {objs : List BReader} {id : Nat} {l : Bytes} {ids : List Nat} (h : Yields objs (.buffered id) l ids)
    (hd : ids.length ≤ depth) (n k : Nat) (e : Option Err) :
    ∃ d err objs' l', readAt depth objs id n k e = some (d, err, objs') ∧ d.length ≤ n ∧ Yields objs' (.buffered id) l' ids ∧ l = d ++ l' ∧
      objs'.length = objs.length ∧ (∀ j, j ∉ ids → objs'[j]? = objs[j]?) ∧ (err ≠ none → ∀ b, objs'[id]? = some b → b.unread = []) := by
  induction depth generalizing objs id l ids n with
  | zero => cases h; simp at hd
  | succ f ih =>
    cases h with
    | @buffered _ b r ids hb hy hn =>
    have hlt := (List.getElem?_eq_some_iff.mp hb).1
    -- a change of the outermost reader only
    have upd : ∀ (b' : BReader) (r' : Bytes), Yields objs b'.src r' ids → Yields (objs.set id b') (.buffered id) (b'.unread ++ r') (id :: ids) :=
      fun b' r' hy' => .buffered (by simp [hlt]) (hy'.congr fun j hj => getElem?_set_of_ne _ _ (by rintro rfl; exact hn hj)) hn
    have frame : ∀ (b' : BReader) (j : Nat), j ∉ id :: ids → (objs.set id b')[j]? = objs[j]? := fun b' j hj =>
      getElem?_set_of_ne _ _ (by rintro rfl; exact hj List.mem_cons_self)
    unfold readAt
    rw [hb]
    simp only
    obtain ⟨u, sz, s, er⟩ := b
    simp only at hy ⊢
    cases hy with
    | plain =>
      have hH : Holds ⟨u, sz, .plain r, er⟩ [] (u ++ r) := ⟨r, rfl, by simp⟩
      cases hr : (⟨u, sz, .plain r, er⟩ : BReader).read n k e with
      | none =>
        exact absurd hr (read_ne_none rfl n k e)
      | some x =>
        obtain ⟨d, err, b'⟩ := x
        obtain ⟨⟨rest', h1, h2⟩, h3, h4⟩ := read_holds hH hr
        refine ⟨d, err, objs.set id b', b'.unread ++ rest', rfl, h3, upd b' rest' (by rw [h1]; exact .plain rest'), ?_, by simp, frame b', ?_⟩
        · rw [← h2]; simp
        · intro he b1 hb1
          simp only [List.getElem?_set_self hlt, Option.some.injEq] at hb1
          subst hb1
          exact h4 he
    | @buffered j bj rj jds hbj hyj hnj =>
      have hsub : Yields objs (.buffered j) (bj.unread ++ rj) (j :: jds) := .buffered hbj hyj hnj
      have hd' : (j :: jds).length ≤ f := by simpa using hd
      simp only
      split
      · split
        · refine ⟨[], none, objs, u ++ (bj.unread ++ rj), rfl, by simp, .buffered hb hsub hn, rfl, rfl, fun _ _ => rfl, by simp⟩
        · rename_i hu
          have hu : u = [] := by simpa using hu
          refine ⟨[], er, _, u ++ (bj.unread ++ rj), rfl, by simp, upd ⟨u, sz, .buffered j, none⟩ _ hsub, rfl, by simp, frame _, ?_⟩
          intro _ b1 hb1
          simp only [List.getElem?_set_self hlt, Option.some.injEq] at hb1
          subst hb1
          exact hu
      · rename_i hn0
        split
        · rename_i hu
          split
          · refine ⟨[], er, _, u ++ (bj.unread ++ rj), rfl, by simp, upd ⟨u, sz, .buffered j, none⟩ _ hsub, rfl, by simp, frame _, ?_⟩
            intro _ b1 hb1
            simp only [List.getElem?_set_self hlt, Option.some.injEq] at hb1
            subst hb1
            exact hu
          · split
            · obtain ⟨d, err, objs', l', e1, e2, e3, e4, e5, e6, e7⟩ := ih hsub hd' n
              have hb' : objs'[id]? = some ⟨u, sz, .buffered j, er⟩ := by rw [e6 id hn]; exact hb
              refine ⟨d, err, objs', u ++ l', e1, e2, .buffered hb' e3 hn, by rw [hu, e4]; rfl, e5, ?_, ?_⟩
              · exact fun i hi => e6 i fun h => hi (List.mem_cons_of_mem _ h)
              · intro _ b1 hb1
                rw [hb'] at hb1
                cases hb1
                exact hu
            · obtain ⟨d, err, objs', l', e1, e2, e3, e4, e5, e6, e7⟩ := ih hsub hd' sz
              have hb' : objs'[id]? = some ⟨u, sz, .buffered j, er⟩ := by rw [e6 id hn]; exact hb
              have hlt' : id < objs'.length := by omega
              rw [e1]
              simp only
              split
              · rename_i hde
                have hde : d = [] := by simpa using hde
                refine ⟨[], err, objs', u ++ l', rfl, by simp, .buffered hb' e3 hn, by rw [hu, e4, hde], e5, ?_, ?_⟩
                · exact fun i hi => e6 i fun h => hi (List.mem_cons_of_mem _ h)
                · intro _ b1 hb1
                  rw [hb'] at hb1
                  cases hb1
                  exact hu
              · refine ⟨d.take n, none, _, d.drop n ++ l', rfl, List.length_take_le _ _, ?_, ?_, by simpa using e5, ?_, by simp⟩
                · refine .buffered (b := ⟨d.drop n, sz, .buffered j, err⟩) (by simp [hlt']) ?_ hn
                  exact e3.congr fun i hi => getElem?_set_of_ne _ _ (by rintro rfl; exact hn hi)
                · rw [hu, e4]; simp [← List.append_assoc, List.take_append_drop]
                · intro i hi
                  rw [getElem?_set_of_ne _ _ (by rintro rfl; exact hi List.mem_cons_self)]
                  exact e6 i fun h => hi (List.mem_cons_of_mem _ h)
        · refine ⟨u.take n, none, _, u.drop n ++ (bj.unread ++ rj), rfl, List.length_take_le _ _, upd ⟨u.drop n, sz, .buffered j, er⟩ _ hsub, ?_, by simp, frame _, by simp⟩
          rw [← List.append_assoc (List.take _ _), List.take_append_drop]

theorem getElem?_modify_of_ne {α : Type} (l : List α) {i j : Nat} (f : α → α) (h : j ≠ i) : (l.modify i f)[j]? = l[j]? := by
  simp [Ne.symm h]

/-- The three outcomes of `getReader`: the reader given, a new one, a pooled one. -/
theorem getReader_cases (w : RWorld) (choice : Option Nat) (s : Src) (size : Int) :
    (∃ id b, choice.bind (w.pool[·]?) = none ∧ s = .buffered id ∧ w.objs[id]? = some b ∧ size ≤ b.size ∧ getReader w choice s size = (id, w)) ∨
    (choice.bind (w.pool[·]?) = none ∧ (∀ id b, s = .buffered id → w.objs[id]? = some b → b.size < size) ∧
      getReader w choice s size = (w.objs.length, { w with objs := w.objs ++ [newReader s size] })) ∨
    (∃ i id, choice = some i ∧ w.pool[i]? = some id ∧ getReader w choice s size = (id, ⟨w.objs.modify id (·.reset s), w.pool.eraseIdx i⟩)) := by
  cases hc : choice.bind (w.pool[·]?) with
  | some id =>
    right; right
    obtain ⟨i, rfl, hi⟩ := Option.bind_eq_some_iff.mp hc
    exact ⟨i, id, rfl, hi, by simp only [getReader, hi]⟩
  | none =>
    have e : getReader w choice s size = getReader w none s size := by
      cases choice with
      | none => rfl
      | some i =>
        have hi : w.pool[i]? = none := hc
        simp only [getReader, hi]
    rw [e]
    unfold getReader
    simp only
    cases s with
    | buffered id =>
      simp only
      cases hb : w.objs[id]? with
      | none => exact .inr (.inl ⟨trivial, by intro _ b h h'; cases h; simp [hb] at h', rfl⟩)
      | some b =>
        simp only
        split
        · rename_i hsz
          exact .inl ⟨id, b, trivial, rfl, hb, hsz, rfl⟩
        · rename_i hsz
          exact .inr (.inl ⟨trivial, fun _ b' h h' => by cases h; rw [hb] at h'; cases h'; omega, rfl⟩)
    | plain rest => exact .inr (.inl ⟨trivial, by rintro _ _ ⟨⟩, rfl⟩)
    | nil => exact .inr (.inl ⟨trivial, by rintro _ _ ⟨⟩, rfl⟩)

/-- The pool holds readers that exist, each once, and none of the chain `ids`. -/
structure RClean (w : RWorld) (ids : List Nat) : Prop where
  bound : ∀ j ∈ w.pool, j < w.objs.length
  nodup : w.pool.Nodup
  apart : ∀ j ∈ ids, j ∉ w.pool

/-- What can happen while a user reads through the reader `id` of the chain `ids`: their own reads, which deliver bytes to them, and whatever
other users do with readers that are not in the chain. -/
inductive RUse (ids : List Nat) (id : Nat) : RWorld → Bytes → RWorld → Prop where
  | refl (w : RWorld) : RUse ids id w [] w
  | read {w w1 : RWorld} {D : Bytes} (n k : Nat) (e : Option Err) {d : Bytes} {err : Option Err} {objs' : List BReader} : RUse ids id w D w1 →
      readObj w1.objs id n k e = some (d, err, objs') → RUse ids id w (D ++ d) { w1 with objs := objs' }
  | otherGet {w w1 : RWorld} {D : Bytes} (choice : Option Nat) (s : Src) (size : Int) : RUse ids id w D w1 → RUse ids id w D (getReader w1 choice s size).2
  | otherPut {w w1 : RWorld} {D : Bytes} (j : Nat) : RUse ids id w D w1 → j ∉ ids → j ∉ w1.pool → j < w1.objs.length → RUse ids id w D (putReader w1 j)
  | otherRead {w w1 : RWorld} {D : Bytes} (j n k : Nat) (e : Option Err) {d : Bytes} {err : Option Err} {objs' : List BReader} {l : Bytes} {js : List Nat} :
      RUse ids id w D w1 → Yields w1.objs (.buffered j) l js → (∀ x ∈ js, x ∉ ids) → readObj w1.objs j n k e = some (d, err, objs') →
      RUse ids id w D { w1 with objs := objs' }
  | otherNew {w w1 : RWorld} {D : Bytes} (b : BReader) : RUse ids id w D w1 → RUse ids id w D { w1 with objs := w1.objs ++ [b] }
  | evict {w w1 : RWorld} {D : Bytes} (i : Nat) : RUse ids id w D w1 → RUse ids id w D { w1 with pool := w1.pool.eraseIdx i }

/-- Obtaining a reader leaves the chain alone, and the pool clean. -/
theorem getReader_clean {w : RWorld} {ids : List Nat} (hc : RClean w ids) (hb : ∀ j ∈ ids, j < w.objs.length) (choice : Option Nat) (s : Src) (size : Int) :
    RClean (getReader w choice s size).2 ids ∧ (∀ j ∈ ids, (getReader w choice s size).2.objs[j]? = w.objs[j]?) ∧
      w.objs.length ≤ (getReader w choice s size).2.objs.length := by
  rcases getReader_cases w choice s size with ⟨id, b, _, _, _, _, e⟩ | ⟨_, _, e⟩ | ⟨i, id, _, hi, e⟩ <;> rw [e]
  · exact ⟨hc, fun _ _ => rfl, Nat.le_refl _⟩
  · refine ⟨⟨fun j hj => by have := hc.bound j hj; simp; omega, hc.nodup, hc.apart⟩, fun j hj => List.getElem?_append_left (hb j hj), by simp⟩
  · have hm := List.mem_of_getElem? hi
    refine ⟨⟨fun j hj => by simpa using hc.bound j (List.mem_of_mem_eraseIdx hj), hc.nodup.sublist (List.eraseIdx_sublist _ _),
      fun j hj h => hc.apart j hj (List.mem_of_mem_eraseIdx h)⟩, fun j hj => ?_, by simp⟩
    exact getElem?_modify_of_ne _ _ (by rintro rfl; exact hc.apart _ hj hm)

theorem RUse.keeps {w w' : RWorld} {ids : List Nat} {id : Nat} {D l : Bytes} (h : RUse ids id w D w') (hy : Yields w.objs (.buffered id) l ids)
    (hc : RClean w ids) : RClean w' ids ∧ ∃ l', Yields w'.objs (.buffered id) l' ids ∧ l = D ++ l' := by
  induction h with
  | refl => exact ⟨hc, l, hy, rfl⟩
  | read n k e _ hr ih =>
    obtain ⟨hc1, l1, hy1, h1⟩ := ih
    obtain ⟨d', err', objs'', l2, e1, _, e3, e4, e5, e6, _⟩ := readAt_spec _ hy1 hy1.depth n k e
    rw [readObj, e1] at hr
    simp only [Option.some.injEq, Prod.mk.injEq] at hr
    obtain ⟨rfl, rfl, rfl⟩ := hr
    exact ⟨⟨fun j hj => by rw [e5]; exact hc1.bound j hj, hc1.nodup, hc1.apart⟩, l2, e3, by rw [h1, e4, List.append_assoc]⟩
  | otherGet choice s size _ ih =>
    obtain ⟨hc1, l1, hy1, h1⟩ := ih
    obtain ⟨c1, c2, _⟩ := getReader_clean hc1 hy1.bound choice s size
    exact ⟨c1, l1, hy1.congr c2, h1⟩
  | otherPut j _ hj hjp hjl ih =>
    obtain ⟨hc1, l1, hy1, h1⟩ := ih
    refine ⟨⟨fun x hx => ?_, ?_, fun x hx h => ?_⟩, l1, hy1.congr fun x hx => getElem?_modify_of_ne _ _ (by rintro rfl; exact hj hx), h1⟩
    · simp only [putReader, List.length_modify]
      rcases List.mem_append.mp hx with h | h
      · exact hc1.bound x h
      · simp only [List.mem_singleton] at h; subst h; exact hjl
    · simp only [putReader]
      exact List.Nodup.append hc1.nodup (by simp) (by simpa using hjp)
    · rcases List.mem_append.mp h with h | h
      · exact hc1.apart x hx h
      · simp only [List.mem_singleton] at h; subst h; exact hj hx
  | otherRead j n k e _ hyj hd hr ih =>
    obtain ⟨hc1, l1, hy1, h1⟩ := ih
    obtain ⟨d', err', objs'', l2, e1, _, e3, e4, e5, e6, _⟩ := readAt_spec _ hyj hyj.depth n k e
    rw [readObj, e1] at hr
    simp only [Option.some.injEq, Prod.mk.injEq] at hr
    obtain ⟨rfl, rfl, rfl⟩ := hr
    exact ⟨⟨fun j hj => by rw [e5]; exact hc1.bound j hj, hc1.nodup, hc1.apart⟩, l1, hy1.congr fun x hx => e6 x fun h => hd x h hx, h1⟩
  | otherNew b _ ih =>
    obtain ⟨hc1, l1, hy1, h1⟩ := ih
    exact ⟨⟨fun j hj => by have := hc1.bound j hj; simp; omega, hc1.nodup, hc1.apart⟩, l1,
      hy1.congr fun x hx => List.getElem?_append_left (hy1.bound x hx), h1⟩
  | evict i _ ih =>
    obtain ⟨hc1, l1, hy1, h1⟩ := ih
    exact ⟨⟨fun j hj => hc1.bound j (List.mem_of_mem_eraseIdx hj), hc1.nodup.sublist (List.eraseIdx_sublist _ _),
      fun j hj h => hc1.apart j hj (List.mem_of_mem_eraseIdx h)⟩, l1, hy1, h1⟩

/-- C96: a reader obtained for a source that is a `*bufio.Reader` or reads from one, to any depth, has exactly the bytes the source has left; the
source is left as it was. The reader is the source itself only if there was no pooled reader and the buffer of the source is big enough; otherwise
it is a reader on top of the chain of the source. -/
theorem C96_get {w : RWorld} {s : Src} {l : Bytes} {ids : List Nat} (hy : Yields w.objs s l ids) (hc : RClean w ids) (choice : Option Nat) (size : Int) :
    let r := getReader w choice s size
    Yields r.2.objs s l ids ∧
    (s = .buffered r.1 ∧ Yields r.2.objs (.buffered r.1) l ids ∧ RClean r.2 ids ∧ choice.bind (w.pool[·]?) = none ∧ (∃ b, w.objs[r.1]? = some b ∧ size ≤ b.size) ∨
      Yields r.2.objs (.buffered r.1) l (r.1 :: ids) ∧ RClean r.2 (r.1 :: ids) ∧
        (choice.bind (w.pool[·]?) = none → ∃ b, r.2.objs[r.1]? = some b ∧ size ≤ b.size ∧ 16 ≤ b.size)) := by
  obtain ⟨c1, c2, c3⟩ := getReader_clean hc hy.bound choice s size
  refine ⟨hy.congr c2, ?_⟩
  rcases getReader_cases w choice s size with ⟨id, b, h1, rfl, hb, hsz, e⟩ | ⟨h1, h2, e⟩ | ⟨i, id, rfl, hi, e⟩ <;> rw [e] at c1 c2 c3 ⊢
  · exact .inl ⟨rfl, hy, hc, h1, b, hb, hsz⟩
  · right
    have hn : w.objs.length ∉ ids := fun h => Nat.lt_irrefl _ (hy.bound _ h)
    refine ⟨Yields.buffered (b := newReader s size) (by simp) (hy.congr c2) hn, ⟨c1.bound, c1.nodup, fun j hj h => ?_⟩, fun _ => ?_⟩
    · rcases List.mem_cons.mp hj with rfl | hj
      · exact Nat.lt_irrefl _ (hc.bound _ h)
      · exact c1.apart j hj h
    · exact ⟨newReader s size, by simp, by simp only [newReader]; omega, by simp only [newReader]; omega⟩
  · right
    have hm := List.mem_of_getElem? hi
    have hb := hc.bound id hm
    have hn : id ∉ ids := fun h => hc.apart _ h hm
    refine ⟨Yields.buffered (b := w.objs[id].reset s) (by simp [List.getElem?_eq_getElem hb]) (hy.congr c2) hn, ⟨c1.bound, c1.nodup, fun j hj h => ?_⟩, fun h => ?_⟩
    · rcases List.mem_cons.mp hj with rfl | hj
      · obtain ⟨hlt, rfl⟩ := List.getElem?_eq_some_iff.mp hi
        have := (perm_get_erase w.pool i hlt).nodup_iff.mp hc.nodup
        exact (List.nodup_cons.mp this).1 h
      · exact c1.apart j hj h
    · simp [hi] at h

/-- C96: `Read` on a reader of a chain does not panic, and delivers the next bytes of the chain, at most as many as asked for; it changes no
reader outside the chain. It reports an error only if nothing is left in the buffer of this reader. -/
theorem C96_read {objs : List BReader} {id : Nat} {l : Bytes} {ids : List Nat} (hy : Yields objs (.buffered id) l ids) (n k : Nat) (e : Option Err) :
    ∃ d err objs' l', readObj objs id n k e = some (d, err, objs') ∧ d.length ≤ n ∧ l = d ++ l' ∧ Yields objs' (.buffered id) l' ids ∧
      (∀ j, j ∉ ids → objs'[j]? = objs[j]?) ∧ (err ≠ none → ∀ b, objs'[id]? = some b → b.unread = []) := by
  obtain ⟨d, err, objs', l', e1, e2, e3, e4, _, e6, e7⟩ := readAt_spec _ hy hy.depth n k e
  exact ⟨d, err, objs', l', e1, e2, e4, e3, e6, e7⟩

/-- C96: whatever other users do with other readers meanwhile, what a user has read through a reader obtained for the source `s` is exactly the
beginning of what `s` had left, and the reader has the rest. -/
theorem C96_session {w : RWorld} {s : Src} {l : Bytes} {ids : List Nat} (hy : Yields w.objs s l ids) (hc : RClean w ids) (choice : Option Nat) (size : Int) :
    ∃ ids', (ids' = ids ∨ ids' = (getReader w choice s size).1 :: ids) ∧ ∀ D w', RUse ids' (getReader w choice s size).1 (getReader w choice s size).2 D w' →
      ∃ l', Yields w'.objs (.buffered (getReader w choice s size).1) l' ids' ∧ l = D ++ l' := by
  rcases (C96_get hy hc choice size).2 with ⟨_, h2, h3, _⟩ | ⟨h2, h3, _⟩
  · exact ⟨ids, .inl rfl, fun D w' h => (h.keeps h2 h3).2⟩
  · exact ⟨_, .inr rfl, fun D w' h => (h.keeps h2 h3).2⟩

/-- C98, for readers: a user who has read `D` through a reader that is not the source `own` itself puts it back; then `own` still has the rest,
except what was buffered in the reader that was put back. Missing: if the reader obtained is `own` itself, it is false (`C98_reader_refuted`). -/
theorem C98_reader_partial {w : RWorld} {own : Nat} {l : Bytes} {ids : List Nat} (hy : Yields w.objs (.buffered own) l ids) (hc : RClean w ids)
    (choice : Option Nat) (size : Int) (hne : (getReader w choice (.buffered own) size).1 ≠ own) {D : Bytes} {w' : RWorld}
    (hu : RUse ((getReader w choice (.buffered own) size).1 :: ids) (getReader w choice (.buffered own) size).1 (getReader w choice (.buffered own) size).2 D w') :
    ∃ b rest, w'.objs[(getReader w choice (.buffered own) size).1]? = some b ∧ l = D ++ b.unread ++ rest ∧
      Yields (putReader w' (getReader w choice (.buffered own) size).1).objs (.buffered own) rest ids := by
  rcases (C96_get hy hc choice size).2 with ⟨h1, _⟩ | ⟨h2, h3, _⟩
  · simp only [Src.buffered.injEq] at h1
    exact absurd h1.symm hne
  · obtain ⟨_, l', hy', hl⟩ := hu.keeps h2 h3
    generalize (getReader w choice (.buffered own) size).1 = id at *
    cases hy' with
    | @buffered _ b r _ hb hyr hn =>
      refine ⟨b, r, hb, by rw [hl, List.append_assoc], ?_⟩
      have hs : b.src = .buffered own := by
        cases hy with
        | buffered => generalize b.src = s at hyr; cases hyr; rfl
      rw [hs] at hyr
      exact hyr.congr fun j hj => getElem?_modify_of_ne _ _ (by rintro rfl; exact hn hj)

/-- C98 is false for a `*bufio.Reader` with a big enough buffer when the pool is empty: `GetBufferReader(own)` returns `own`, and putting it back
takes away its source. -/
theorem C98_reader_refuted :
    ∃ (w : RWorld) (own : Nat) (l : Bytes) (ids : List Nat), Yields w.objs (.buffered own) l ids ∧ RClean w ids ∧ l ≠ [] ∧
      (getReader w none (.buffered own) 4096).1 = own ∧
      readObj (putReader (getReader w none (.buffered own) 4096).2 own).objs own 1 1 none = none := by
  refine ⟨⟨[newReader (.plain [1]) 4096], []⟩, 0, _, _, .buffered rfl (.plain [1]) (by simp), ⟨by simp, by simp, by simp⟩, by simp [newReader], ?_, ?_⟩
  · decide
  · decide

/-! ## Writers -/

/-- The contract of `io.Writer`, for states in which `I s a`: `a` has been accepted. -/
def Sink.Ok {σ : Type} (snk : Sink σ) (I : σ → Bytes → Prop) : Prop :=
  ∀ s a p, I s a → ∃ n e s', snk s p = some (n, e, s') ∧ n ≤ p.length ∧ (e = none → n = p.length) ∧ I s' (a ++ p.take n)

theorem WBuf.flush_spec {σ : Type} {snk : Sink σ} {I : σ → Bytes → Prop} (hs : snk.Ok I) {b : WBuf} {s : σ} {a : Bytes} (h : I s a)
    (hf : b.buf.length ≤ b.size) :
    ∃ e b' s' a', b.flush snk s = some (e, b', s') ∧ I s' a' ∧ a' ++ b'.buf = a ++ b.buf ∧ b'.size = b.size ∧ b'.buf.length ≤ b'.size ∧ b'.err = e ∧
      (e = none → b'.buf = []) ∧ (b.err ≠ none → e = b.err) := by
  unfold WBuf.flush
  cases he : b.err with
  | some e => exact ⟨some e, b, s, a, rfl, h, rfl, rfl, hf, he, by simp, fun _ => rfl⟩
  | none =>
    simp only
    split
    · rename_i hb
      exact ⟨none, b, s, a, rfl, h, rfl, rfl, hf, he, fun _ => hb, by simp⟩
    · obtain ⟨n, e, s', h1, h2, h3, h4⟩ := hs s a b.buf h
      rw [h1]
      cases e with
      | none =>
        simp only
        refine ⟨none, _, s', _, rfl, h4, ?_, rfl, by simp, rfl, fun _ => rfl, by simp⟩
        rw [h3 rfl]; simp
      | some e =>
        simp only
        refine ⟨some e, _, s', _, rfl, h4, ?_, rfl, by simp; omega, rfl, by simp, by simp⟩
        simp

theorem WBuf.writeLoop_stop {σ : Type} (snk : Sink σ) (f : Nat) (b : WBuf) (s : σ) (p : Bytes) (h : ¬ (p.length > b.size - b.buf.length ∧ b.err = none)) :
    WBuf.writeLoop snk f b s p = some (p, b, s) := by
  cases f with
  | zero => rfl
  | succ f => unfold WBuf.writeLoop; rw [if_neg h]

theorem WBuf.writeLoop_spec {σ : Type} {snk : Sink σ} {I : σ → Bytes → Prop} (hs : snk.Ok I) : ∀ (f : Nat) (b : WBuf) (s : σ) (a p : Bytes), I s a →
    b.buf.length ≤ b.size →
    ∃ p' b' s' a', WBuf.writeLoop snk f b s p = some (p', b', s') ∧ I s' a' ∧ a' ++ b'.buf ++ p' = a ++ b.buf ++ p ∧ b'.size = b.size ∧
      b'.buf.length ≤ b'.size ∧ p' <:+ p ∧
      (b'.err = none → p'.length ≤ b'.size - b'.buf.length ∨ f = 0 ∨ f = 1 ∧ b.buf ≠ []) := by
  intro f
  induction f with
  | zero => intro b s a p h hf; exact ⟨p, b, s, a, rfl, h, rfl, rfl, hf, List.suffix_rfl, fun _ => .inr (.inl rfl)⟩
  | succ f ih =>
    intro b s a p h hf
    unfold WBuf.writeLoop
    split
    · rename_i hc
      split
      · rename_i hb
        obtain ⟨n, e, s', h1, h2, h3, h4⟩ := hs s a p h
        rw [h1]
        simp only
        obtain ⟨p', b', s'', a', e1, e2, e3, e4, e5, e6, e7⟩ := ih { b with err := e } s' (a ++ p.take n) (p.drop n) h4 hf
        refine ⟨p', b', s'', a', e1, e2, ?_, e4, e5, e6.trans (List.drop_suffix _ _), ?_⟩
        · rw [e3, hb]; simp
        · intro he'
          cases e with
          | some e =>
            rw [WBuf.writeLoop_stop _ _ _ _ _ (by simp)] at e1
            cases e1
            cases he'
          | none =>
            rw [h3 rfl, List.drop_length, WBuf.writeLoop_stop _ _ _ _ _ (by simp)] at e1
            cases e1
            exact .inl (by simp)
      · obtain ⟨e, b1, s', a1, h1, h2, h3, h4, h5, h6, h7, h8⟩ := WBuf.flush_spec hs (b := { b with buf := b.buf ++ p.take (b.size - b.buf.length) }) h
          (by simp; omega)
        simp only at h3 h4 h8 ⊢
        rw [h1]
        simp only
        obtain ⟨p', b', s'', a', e1, e2, e3, e4, e5, e6, e7⟩ := ih b1 s' a1 (p.drop (b.size - b.buf.length)) h2 h5
        refine ⟨p', b', s'', a', e1, e2, ?_, by rw [e4, h4], e5, e6.trans (List.drop_suffix _ _), ?_⟩
        · rw [e3, h3]; simp
        · intro he'
          cases e with
          | some e =>
            rw [WBuf.writeLoop_stop _ _ _ _ _ (by simp [h6])] at e1
            cases e1
            rw [h6] at he'
            cases he'
          | none =>
            rcases e7 he' with h | rfl | ⟨_, h⟩
            · exact .inl h
            · exact .inr (.inr ⟨rfl, by assumption⟩)
            · exact absurd (h7 rfl) h
    · rename_i hn
      refine ⟨p, b, s, a, rfl, h, rfl, rfl, hf, List.suffix_rfl, fun he => .inl ?_⟩
      by_contra hc
      exact hn ⟨by omega, he⟩

theorem WBuf.write_spec {σ : Type} {snk : Sink σ} {I : σ → Bytes → Prop} (hs : snk.Ok I) {b : WBuf} {s : σ} {a : Bytes} (p : Bytes) (h : I s a)
    (hf : b.buf.length ≤ b.size) :
    ∃ n e b' s' a', b.write snk s p = some (n, e, b', s') ∧ n ≤ p.length ∧ (e = none → n = p.length) ∧ I s' a' ∧
      a' ++ b'.buf = a ++ b.buf ++ p.take n ∧ b'.size = b.size ∧ b'.buf.length ≤ b'.size := by
  obtain ⟨p', b', s', a', e1, e2, e3, e4, e5, ⟨q, hq⟩, e7⟩ := WBuf.writeLoop_spec hs 3 b s a p h hf
  unfold WBuf.write
  rw [e1]
  simp only
  cases he : b'.err with
  | some e =>
    refine ⟨_, _, _, _, a', rfl, Nat.sub_le _ _, by simp, e2, ?_, e4, e5⟩
    rw [← hq] at e3 ⊢
    simp only [List.length_append, Nat.add_sub_cancel, List.take_left']
    rw [← List.append_assoc] at e3
    exact List.append_cancel_right e3
  | none =>
    refine ⟨_, _, _, _, a', rfl, Nat.le_refl _, by simp, e2, ?_, e4, ?_⟩
    · simpa using e3
    · have := e7 he
      simp only [List.length_append]
      simp at this
      omega

theorem plainSink_ok : plainSink.Ok fun w a => w.out = a := by
  rintro w _ p rfl
  unfold plainSink Writer.write
  cases w.fail w.calls with
  | none => exact ⟨_, _, _, rfl, Nat.le_refl _, fun _ => rfl, by simp⟩
  | some e => exact ⟨_, _, _, rfl, Nat.min_le_right _ _, by simp, by simp [List.take_eq_take_iff]⟩

theorem Emits.congr {objs objs' : List CWriter} {s : Dst} {l : Bytes} {ids : List Nat} (h : Emits objs s l ids)
    (he : ∀ j ∈ ids, objs'[j]? = objs[j]?) : Emits objs' s l ids := by
  induction h with
  | plain w => exact .plain w
  | buffered hb h2 _ hn ih => exact .buffered (by rw [he _ List.mem_cons_self]; exact hb) h2 (ih fun j hj => he j (List.mem_cons_of_mem _ hj)) hn

theorem Emits.nodup {objs : List CWriter} {s : Dst} {l : Bytes} {ids : List Nat} (h : Emits objs s l ids) : ids.Nodup := by
  induction h with
  | plain => exact List.nodup_nil
  | buffered _ _ _ hn ih => exact List.nodup_cons.mpr ⟨hn, ih⟩

theorem Emits.bound {objs : List CWriter} {s : Dst} {l : Bytes} {ids : List Nat} (h : Emits objs s l ids) : ∀ j ∈ ids, j < objs.length := by
  induction h with
  | plain => simp
  | buffered hb _ _ _ ih =>
    intro j hj
    rcases List.mem_cons.mp hj with rfl | hj
    · exact (List.getElem?_eq_some_iff.mp hb).1
    · exact ih j hj

theorem Emits.depth {objs : List CWriter} {s : Dst} {l : Bytes} {ids : List Nat} (h : Emits objs s l ids) : ids.length ≤ objs.length :=
  length_le_of_nodup h.nodup h.bound

/-- The chain `ids` below has accepted `a`; all other writers are as in `objs`. -/
def Below (objs : List CWriter) (j : Nat) (ids : List Nat) (o : List CWriter) (a : Bytes) : Prop :=
  Emits o (.buffered j) a ids ∧ o.length = objs.length ∧ ∀ k, k ∉ ids → o[k]? = objs[k]?

theorem writeAt_spec (depth : Nat) {objs : List CWriter} {id : Nat} {a : Bytes} {ids : List Nat} (h : Emits objs (.buffered id) a ids)
    (hd : ids.length ≤ depth) (p : Bytes) :
    ∃ n e objs', writeAt depth objs id p = some (n, e, objs') ∧ n ≤ p.length ∧ (e = none → n = p.length) ∧
      Below objs id ids objs' (a ++ p.take n) := by
  induction depth generalizing objs id a ids p with
  | zero => cases h; simp at hd
  | succ f ih =>
    cases h with
    | @buffered _ b r ids hb hf hy hn =>
    have hlt := (List.getElem?_eq_some_iff.mp hb).1
    obtain ⟨b, dst⟩ := b
    unfold writeAt
    rw [hb]
    simp only at hy hf ⊢
    cases hy with
    | plain w =>
      simp only
      obtain ⟨n, e, b', w', _, h1, h2, h3, rfl, h5, h6, h7⟩ := WBuf.write_spec plainSink_ok (b := b) (s := w) p rfl hf
      rw [h1]
      refine ⟨n, e, _, rfl, h2, h3, ?_, by simp, ?_⟩
      · rw [← h5]
        exact .buffered (b := ⟨b', .plain w'⟩) (by simp [hlt]) h7 (.plain w') (by simp)
      · exact fun k hk => getElem?_set_of_ne _ _ (by rintro rfl; exact hk List.mem_cons_self)
    | @buffered j bj rj jds hbj hfj hyj hnj =>
      have hsub : Emits objs (.buffered j) (rj ++ bj.b.buf) (j :: jds) := .buffered hbj hfj hyj hnj
      have hd' : (j :: jds).length ≤ f := by simpa using hd
      have hok : Sink.Ok (fun o p => writeAt f o j p) (Below objs j (j :: jds)) := by
        rintro o a p ⟨g1, g2, g3⟩
        obtain ⟨n, e, o', e1, e2, e3, e4, e5, e6⟩ := ih g1 hd' p
        exact ⟨n, e, o', e1, e2, e3, e4, by rw [e5, g2], fun k hk => by rw [e6 k hk, g3 k hk]⟩
      simp only
      obtain ⟨n, e, b', o', a', h1, h2, h3, ⟨g1, g2, g3⟩, h5, h6, h7⟩ := WBuf.write_spec hok (b := b) (s := objs) p ⟨hsub, rfl, fun _ _ => rfl⟩ hf
      rw [h1]
      refine ⟨n, e, _, rfl, h2, h3, ?_, by simpa using g2, ?_⟩
      · rw [← h5]
        refine .buffered (b := ⟨b', .buffered j⟩) (by simp [g2, hlt]) h7 (g1.congr fun k hk => ?_) hn
        exact getElem?_set_of_ne _ _ (by rintro rfl; exact hn hk)
      · intro k hk
        rw [getElem?_set_of_ne _ _ (by rintro rfl; exact hk List.mem_cons_self)]
        exact g3 k fun h => hk (List.mem_cons_of_mem _ h)

theorem flushAt_spec {objs : List CWriter} {id : Nat} {a : Bytes} {ids : List Nat} (h : Emits objs (.buffered id) a ids) :
    ∃ e objs', flushObj objs id = some (e, objs') ∧ Below objs id ids objs' a ∧ (e = none → ∃ b, objs'[id]? = some b ∧ b.b.buf = []) := by
  have hdep := h.depth
  cases h with
  | @buffered _ b r ids hb hf hy hn =>
  have hlt := (List.getElem?_eq_some_iff.mp hb).1
  obtain ⟨b, dst⟩ := b
  unfold flushObj flushAt
  rw [hb]
  simp only at hy hf ⊢
  cases hy with
  | plain w =>
    simp only
    obtain ⟨e, b', w', _, h1, rfl, h3, h4, h5, h6, h7, _⟩ := WBuf.flush_spec plainSink_ok (b := b) (s := w) rfl hf
    rw [h1]
    refine ⟨e, _, rfl, ⟨?_, by simp, ?_⟩, fun he => ⟨⟨b', .plain w'⟩, by simp [hlt], h7 he⟩⟩
    · rw [← h3]
      exact .buffered (b := ⟨b', .plain w'⟩) (by simp [hlt]) h5 (.plain w') (by simp)
    · exact fun k hk => getElem?_set_of_ne _ _ (by rintro rfl; exact hk List.mem_cons_self)
  | @buffered j bj rj jds hbj hfj hyj hnj =>
    have hsub : Emits objs (.buffered j) (rj ++ bj.b.buf) (j :: jds) := .buffered hbj hfj hyj hnj
    have hok : Sink.Ok (fun o p => writeAt objs.length o j p) (Below objs j (j :: jds)) := by
      rintro o a p ⟨g1, g2, g3⟩
      obtain ⟨n, e, o', e1, e2, e3, e4, e5, e6⟩ := writeAt_spec objs.length g1 (by simp at hdep ⊢; omega) p
      exact ⟨n, e, o', e1, e2, e3, e4, by rw [e5, g2], fun k hk => by rw [e6 k hk, g3 k hk]⟩
    simp only
    obtain ⟨e, b', o', a', h1, ⟨g1, g2, g3⟩, h3, h4, h5, h6, h7, _⟩ := WBuf.flush_spec hok (b := b) (s := objs) ⟨hsub, rfl, fun _ _ => rfl⟩ hf
    rw [h1]
    refine ⟨e, _, rfl, ⟨?_, by simpa using g2, ?_⟩, fun he => ⟨⟨b', .buffered j⟩, by simp [g2, hlt], h7 he⟩⟩
    · rw [← h3]
      refine .buffered (b := ⟨b', .buffered j⟩) (by simp [g2, hlt]) h5 (g1.congr fun k hk => ?_) hn
      exact getElem?_set_of_ne _ _ (by rintro rfl; exact hn hk)
    · intro k hk
      rw [getElem?_set_of_ne _ _ (by rintro rfl; exact hk List.mem_cons_self)]
      exact g3 k fun h => hk (List.mem_cons_of_mem _ h)

/-- The three outcomes of `getCWriter`: the writer given, a new one, a pooled one. -/
theorem getCWriter_cases (w : CWorld) (choice : Option Nat) (s : Dst) (size : Int) :
    (∃ id b, choice.bind (w.pool[·]?) = none ∧ s = .buffered id ∧ w.objs[id]? = some b ∧ size ≤ b.b.size ∧ getCWriter w choice s size = (id, w)) ∨
    (choice.bind (w.pool[·]?) = none ∧ (∀ id b, s = .buffered id → w.objs[id]? = some b → b.b.size < size) ∧
      getCWriter w choice s size = (w.objs.length, { w with objs := w.objs ++ [newCWriter s size] })) ∨
    (∃ i id, choice = some i ∧ w.pool[i]? = some id ∧ getCWriter w choice s size = (id, ⟨w.objs.modify id (·.reset s), w.pool.eraseIdx i⟩)) := by
  cases hc : choice.bind (w.pool[·]?) with
  | some id =>
    right; right
    obtain ⟨i, rfl, hi⟩ := Option.bind_eq_some_iff.mp hc
    exact ⟨i, id, rfl, hi, by simp only [getCWriter, hi]⟩
  | none =>
    have e : getCWriter w choice s size = getCWriter w none s size := by
      cases choice with
      | none => rfl
      | some i =>
        have hi : w.pool[i]? = none := hc
        simp only [getCWriter, hi]
    rw [e]
    unfold getCWriter
    simp only
    cases s with
    | buffered id =>
      simp only
      cases hb : w.objs[id]? with
      | none => exact .inr (.inl ⟨trivial, by intro _ b h h'; cases h; simp [hb] at h', rfl⟩)
      | some b =>
        simp only
        split
        · rename_i hsz
          exact .inl ⟨id, b, trivial, rfl, hb, hsz, rfl⟩
        · rename_i hsz
          exact .inr (.inl ⟨trivial, fun _ b' h h' => by cases h; rw [hb] at h'; cases h'; omega, rfl⟩)
    | plain _ => exact .inr (.inl ⟨trivial, by rintro _ _ ⟨⟩, rfl⟩)
    | nil => exact .inr (.inl ⟨trivial, by rintro _ _ ⟨⟩, rfl⟩)

/-- The pool holds writers that exist, each once, and none of the chain `ids`. -/
structure WClean (w : CWorld) (ids : List Nat) : Prop where
  bound : ∀ j ∈ w.pool, j < w.objs.length
  nodup : w.pool.Nodup
  apart : ∀ j ∈ ids, j ∉ w.pool

/-- What can happen while a user writes through the writer `id` of the chain `ids`: their own writes, of which the writer accepts `A` altogether,
and flushes, and whatever other users do with writers that are not in the chain. -/
inductive WUse (ids : List Nat) (id : Nat) : CWorld → Bytes → CWorld → Prop where
  | refl (w : CWorld) : WUse ids id w [] w
  | write {w w1 : CWorld} {A : Bytes} (p : Bytes) {n : Nat} {err : Option Err} {objs' : List CWriter} : WUse ids id w A w1 →
      writeObj w1.objs id p = some (n, err, objs') → WUse ids id w (A ++ p.take n) { w1 with objs := objs' }
  | flush {w w1 : CWorld} {A : Bytes} {err : Option Err} {objs' : List CWriter} : WUse ids id w A w1 →
      flushObj w1.objs id = some (err, objs') → WUse ids id w A { w1 with objs := objs' }
  | otherGet {w w1 : CWorld} {A : Bytes} (choice : Option Nat) (d : Dst) (size : Int) : WUse ids id w A w1 → WUse ids id w A (getCWriter w1 choice d size).2
  | otherPut {w w1 : CWorld} {A : Bytes} (j : Nat) : WUse ids id w A w1 → j ∉ ids → j ∉ w1.pool → j < w1.objs.length → WUse ids id w A (putCWriter w1 j)
  | otherWrite {w w1 : CWorld} {A : Bytes} (j : Nat) (p : Bytes) {n : Nat} {err : Option Err} {objs' : List CWriter} {a : Bytes} {js : List Nat} :
      WUse ids id w A w1 → Emits w1.objs (.buffered j) a js → (∀ x ∈ js, x ∉ ids) → writeObj w1.objs j p = some (n, err, objs') →
      WUse ids id w A { w1 with objs := objs' }
  | otherFlush {w w1 : CWorld} {A : Bytes} (j : Nat) {err : Option Err} {objs' : List CWriter} {a : Bytes} {js : List Nat} :
      WUse ids id w A w1 → Emits w1.objs (.buffered j) a js → (∀ x ∈ js, x ∉ ids) → flushObj w1.objs j = some (err, objs') →
      WUse ids id w A { w1 with objs := objs' }
  | otherNew {w w1 : CWorld} {A : Bytes} (b : CWriter) : WUse ids id w A w1 → WUse ids id w A { w1 with objs := w1.objs ++ [b] }
  | evict {w w1 : CWorld} {A : Bytes} (i : Nat) : WUse ids id w A w1 → WUse ids id w A { w1 with pool := w1.pool.eraseIdx i }

/-- Obtaining a writer leaves the chain alone, and the pool clean. -/
theorem getCWriter_clean {w : CWorld} {ids : List Nat} (hc : WClean w ids) (hb : ∀ j ∈ ids, j < w.objs.length) (choice : Option Nat) (s : Dst) (size : Int) :
    WClean (getCWriter w choice s size).2 ids ∧ (∀ j ∈ ids, (getCWriter w choice s size).2.objs[j]? = w.objs[j]?) ∧
      w.objs.length ≤ (getCWriter w choice s size).2.objs.length := by
  rcases getCWriter_cases w choice s size with ⟨id, b, _, _, _, _, e⟩ | ⟨_, _, e⟩ | ⟨i, id, _, hi, e⟩ <;> rw [e]
  · exact ⟨hc, fun _ _ => rfl, Nat.le_refl _⟩
  · refine ⟨⟨fun j hj => by have := hc.bound j hj; simp; omega, hc.nodup, hc.apart⟩, fun j hj => List.getElem?_append_left (hb j hj), by simp⟩
  · have hm := List.mem_of_getElem? hi
    refine ⟨⟨fun j hj => by simpa using hc.bound j (List.mem_of_mem_eraseIdx hj), hc.nodup.sublist (List.eraseIdx_sublist _ _),
      fun j hj h => hc.apart j hj (List.mem_of_mem_eraseIdx h)⟩, fun j hj => ?_, by simp⟩
    exact getElem?_modify_of_ne _ _ (by rintro rfl; exact hc.apart _ hj hm)


theorem WUse.keeps {w w' : CWorld} {ids : List Nat} {id : Nat} {A a : Bytes} (h : WUse ids id w A w') (hy : Emits w.objs (.buffered id) a ids)
    (hc : WClean w ids) : WClean w' ids ∧ Emits w'.objs (.buffered id) (a ++ A) ids := by
  induction h with
  | refl => exact ⟨hc, by simpa using hy⟩
  | write p _ hr ih =>
    obtain ⟨hc1, hy1⟩ := ih
    obtain ⟨n', err', objs'', e1, _, _, e3, e5, e6⟩ := writeAt_spec _ hy1 hy1.depth p
    rw [writeObj, e1] at hr
    simp only [Option.some.injEq, Prod.mk.injEq] at hr
    obtain ⟨rfl, rfl, rfl⟩ := hr
    exact ⟨⟨fun j hj => by rw [e5]; exact hc1.bound j hj, hc1.nodup, hc1.apart⟩, by simpa using e3⟩
  | flush _ hr ih =>
    obtain ⟨hc1, hy1⟩ := ih
    obtain ⟨err', objs'', e1, ⟨e3, e5, e6⟩, _⟩ := flushAt_spec hy1
    rw [e1] at hr
    simp only [Option.some.injEq, Prod.mk.injEq] at hr
    obtain ⟨rfl, rfl⟩ := hr
    exact ⟨⟨fun j hj => by rw [e5]; exact hc1.bound j hj, hc1.nodup, hc1.apart⟩, e3⟩
  | otherGet choice s size _ ih =>
    obtain ⟨hc1, hy1⟩ := ih
    obtain ⟨c1, c2, _⟩ := getCWriter_clean hc1 hy1.bound choice s size
    exact ⟨c1, hy1.congr c2⟩
  | otherPut j _ hj hjp hjl ih =>
    obtain ⟨hc1, hy1⟩ := ih
    refine ⟨⟨fun x hx => ?_, ?_, fun x hx h => ?_⟩, hy1.congr fun x hx => getElem?_modify_of_ne _ _ (by rintro rfl; exact hj hx)⟩
    · simp only [putCWriter, List.length_modify]
      rcases List.mem_append.mp hx with h | h
      · exact hc1.bound x h
      · simp only [List.mem_singleton] at h; subst h; exact hjl
    · simp only [putCWriter]
      exact List.Nodup.append hc1.nodup (by simp) (by simpa using hjp)
    · rcases List.mem_append.mp h with h | h
      · exact hc1.apart x hx h
      · simp only [List.mem_singleton] at h; subst h; exact hj hx
  | otherWrite j p _ hyj hd hr ih =>
    obtain ⟨hc1, hy1⟩ := ih
    obtain ⟨n', err', objs'', e1, _, _, e3, e5, e6⟩ := writeAt_spec _ hyj hyj.depth p
    rw [writeObj, e1] at hr
    simp only [Option.some.injEq, Prod.mk.injEq] at hr
    obtain ⟨rfl, rfl, rfl⟩ := hr
    exact ⟨⟨fun j hj => by rw [e5]; exact hc1.bound j hj, hc1.nodup, hc1.apart⟩, hy1.congr fun x hx => e6 x fun h => hd x h hx⟩
  | otherFlush j _ hyj hd hr ih =>
    obtain ⟨hc1, hy1⟩ := ih
    obtain ⟨err', objs'', e1, ⟨e3, e5, e6⟩, _⟩ := flushAt_spec hyj
    rw [e1] at hr
    simp only [Option.some.injEq, Prod.mk.injEq] at hr
    obtain ⟨rfl, rfl⟩ := hr
    exact ⟨⟨fun j hj => by rw [e5]; exact hc1.bound j hj, hc1.nodup, hc1.apart⟩, hy1.congr fun x hx => e6 x fun h => hd x h hx⟩
  | otherNew b _ ih =>
    obtain ⟨hc1, hy1⟩ := ih
    exact ⟨⟨fun j hj => by have := hc1.bound j hj; simp; omega, hc1.nodup, hc1.apart⟩,
      hy1.congr fun x hx => List.getElem?_append_left (hy1.bound x hx)⟩
  | evict i _ ih =>
    obtain ⟨hc1, hy1⟩ := ih
    exact ⟨⟨fun j hj => hc1.bound j (List.mem_of_mem_eraseIdx hj), hc1.nodup.sublist (List.eraseIdx_sublist _ _),
      fun j hj h => hc1.apart j hj (List.mem_of_mem_eraseIdx h)⟩, hy1⟩

/-- C97: a writer obtained for a destination that is a `*bufio.Writer` or writes to one, to any depth, starts with what has been accepted for the
destination so far, and leaves the destination as it was. The writer is the destination itself only if there was no pooled writer and the buffer of
the destination is big enough; otherwise it is a writer with an empty buffer on top of the chain of the destination. -/
theorem C97_get {w : CWorld} {d : Dst} {a : Bytes} {ids : List Nat} (hy : Emits w.objs d a ids) (hc : WClean w ids) (choice : Option Nat) (size : Int) :
    let r := getCWriter w choice d size
    Emits r.2.objs d a ids ∧
    (d = .buffered r.1 ∧ Emits r.2.objs (.buffered r.1) a ids ∧ WClean r.2 ids ∧ choice.bind (w.pool[·]?) = none ∧ (∃ b, w.objs[r.1]? = some b ∧ size ≤ b.b.size) ∨
      Emits r.2.objs (.buffered r.1) a (r.1 :: ids) ∧ WClean r.2 (r.1 :: ids) ∧
        (∃ b, r.2.objs[r.1]? = some b ∧ b.b.buf = [] ∧ b.b.err = none ∧ (choice.bind (w.pool[·]?) = none → size ≤ b.b.size ∧ 0 < b.b.size))) := by
  obtain ⟨c1, c2, c3⟩ := getCWriter_clean hc hy.bound choice d size
  refine ⟨hy.congr c2, ?_⟩
  rcases getCWriter_cases w choice d size with ⟨id, b, h1, rfl, hb, hsz, e⟩ | ⟨h1, h2, e⟩ | ⟨i, id, rfl, hi, e⟩ <;> rw [e] at c1 c2 c3 ⊢
  · exact .inl ⟨rfl, hy, hc, h1, b, hb, hsz⟩
  · right
    have hn : w.objs.length ∉ ids := fun h => Nat.lt_irrefl _ (hy.bound _ h)
    refine ⟨?_, ⟨c1.bound, c1.nodup, fun j hj h => ?_⟩, ?_⟩
    · have := Emits.buffered (objs := w.objs ++ [newCWriter d size]) (id := w.objs.length) (b := newCWriter d size) (by simp) (by simp [newCWriter]) (hy.congr c2) hn
      simpa [newCWriter] using this
    · rcases List.mem_cons.mp hj with rfl | hj
      · exact Nat.lt_irrefl _ (hc.bound _ h)
      · exact c1.apart j hj h
    · exact ⟨newCWriter d size, by simp, rfl, rfl, fun _ => by simp only [newCWriter]; split <;> omega⟩
  · right
    have hm := List.mem_of_getElem? hi
    have hb := hc.bound id hm
    have hn : id ∉ ids := fun h => hc.apart _ h hm
    have hg : (w.objs.modify id (·.reset d))[id]? = some (w.objs[id].reset d) := by simp [List.getElem?_eq_getElem hb]
    refine ⟨?_, ⟨c1.bound, c1.nodup, fun j hj h => ?_⟩, ?_⟩
    · have := Emits.buffered (b := w.objs[id].reset d) hg (by simp [CWriter.reset]) (hy.congr c2) hn
      simpa [CWriter.reset] using this
    · rcases List.mem_cons.mp hj with rfl | hj
      · obtain ⟨hlt, rfl⟩ := List.getElem?_eq_some_iff.mp hi
        have := (perm_get_erase w.pool i hlt).nodup_iff.mp hc.nodup
        exact (List.nodup_cons.mp this).1 h
      · exact c1.apart j hj h
    · exact ⟨_, hg, rfl, rfl, fun h => by simp [hi] at h⟩

/-- C97: `Write` on a writer of a chain does not panic. It accepts the first `n` bytes of `p`, all of them if it reports no error, and appends exactly
these to what has been accepted, also if it fails; it changes no writer outside the chain. -/
theorem C97_write {objs : List CWriter} {id : Nat} {a : Bytes} {ids : List Nat} (hy : Emits objs (.buffered id) a ids) (p : Bytes) :
    ∃ n err objs', writeObj objs id p = some (n, err, objs') ∧ n ≤ p.length ∧ (err = none → n = p.length) ∧
      Emits objs' (.buffered id) (a ++ p.take n) ids ∧ (∀ j, j ∉ ids → objs'[j]? = objs[j]?) := by
  obtain ⟨n, err, objs', e1, e2, e3, e4, _, e6⟩ := writeAt_spec _ hy hy.depth p
  exact ⟨n, err, objs', e1, e2, e3, e4, e6⟩

/-- C97: `Flush` on a writer of a chain does not panic, neither loses nor adds bytes, also if it fails, and if it reports no error everything
accepted has been handed over to the destination of this writer. -/
theorem C97_flush {objs : List CWriter} {id : Nat} {a : Bytes} {ids : List Nat} (hy : Emits objs (.buffered id) a ids) :
    ∃ err objs', flushObj objs id = some (err, objs') ∧ Emits objs' (.buffered id) a ids ∧ (∀ j, j ∉ ids → objs'[j]? = objs[j]?) ∧
      (err = none → ∃ b, objs'[id]? = some b ∧ Emits objs' b.dst a ids.tail) := by
  obtain ⟨err, objs', e1, ⟨e3, _, e6⟩, e7⟩ := flushAt_spec hy
  refine ⟨err, objs', e1, e3, e6, fun he => ?_⟩
  obtain ⟨b, hb, hbuf⟩ := e7 he
  cases e3 with
  | @buffered _ b' r ids hb' _ hyr hn =>
    rw [hb] at hb'
    cases hb'
    exact ⟨b, hb, by simpa [hbuf] using hyr⟩

/-- C97: whatever other users do with other writers meanwhile, what has been accepted for the destination `d` is what it was when the writer was
obtained, followed by what the user has written through it. -/
theorem C97_session {w : CWorld} {d : Dst} {a : Bytes} {ids : List Nat} (hy : Emits w.objs d a ids) (hc : WClean w ids) (choice : Option Nat) (size : Int) :
    ∃ ids', (ids' = ids ∨ ids' = (getCWriter w choice d size).1 :: ids) ∧ ∀ A w', WUse ids' (getCWriter w choice d size).1 (getCWriter w choice d size).2 A w' →
      Emits w'.objs (.buffered (getCWriter w choice d size).1) (a ++ A) ids' := by
  rcases (C97_get hy hc choice size).2 with ⟨_, h2, h3, _⟩ | ⟨h2, h3, _⟩
  · exact ⟨ids, .inl rfl, fun A w' h => (h.keeps h2 h3).2⟩
  · exact ⟨_, .inr rfl, fun A w' h => (h.keeps h2 h3).2⟩

/-- C98, for writers: a user who has written `A` through a writer that is not the destination `own` itself, with a successful `Flush` at the end,
puts it back; then `own` has accepted `A` after what it had accepted before, and is otherwise intact. Missing: if the writer obtained is `own`
itself, it is false (`C98_writer_refuted`). -/
theorem C98_writer_partial {w : CWorld} {own : Nat} {a : Bytes} {ids : List Nat} (hy : Emits w.objs (.buffered own) a ids) (hc : WClean w ids)
    (choice : Option Nat) (size : Int) (hne : (getCWriter w choice (.buffered own) size).1 ≠ own) {A : Bytes} {w' : CWorld}
    (hu : WUse ((getCWriter w choice (.buffered own) size).1 :: ids) (getCWriter w choice (.buffered own) size).1 (getCWriter w choice (.buffered own) size).2 A w')
    {objs' : List CWriter} (hf : flushObj w'.objs (getCWriter w choice (.buffered own) size).1 = some (none, objs')) :
    Emits (putCWriter { w' with objs := objs' } (getCWriter w choice (.buffered own) size).1).objs (.buffered own) (a ++ A) ids := by
  rcases (C97_get hy hc choice size).2 with ⟨h1, _⟩ | ⟨h2, h3, _⟩
  · simp only [Dst.buffered.injEq] at h1
    exact absurd h1.symm hne
  · obtain ⟨_, hy'⟩ := hu.keeps h2 h3
    generalize (getCWriter w choice (.buffered own) size).1 = id at *
    obtain ⟨err, o', e1, e2, _, e4⟩ := C97_flush hy'
    rw [hf] at e1
    cases e1
    obtain ⟨b, hb, hyr⟩ := e4 rfl
    have hn : id ∉ ids := (List.nodup_cons.mp hy'.nodup).1
    have hs : b.dst = .buffered own := by
      have hyr' := hyr
      generalize a ++ A = x at hyr'
      cases hy with
      | buffered => simp only [List.tail_cons] at hyr'; generalize b.dst = s at hyr'; cases hyr'; rfl
    rw [hs] at hyr
    exact hyr.congr fun j hj => getElem?_modify_of_ne _ _ (by rintro rfl; exact hn hj)

/-- C98 is false for a `*bufio.Writer` with a big enough buffer when the pool is empty: `GetBufferWriter(own)` returns `own`. Putting it back throws
away the byte `own` had accepted, although every `Flush` before and after reports success, and takes away its destination: the next write that does
not fit, or the next `Flush` of a byte, panics. -/
theorem C98_writer_refuted :
    ∃ (w : CWorld) (own : Nat) (a : Bytes) (ids : List Nat), Emits w.objs (.buffered own) a ids ∧ WClean w ids ∧ a ≠ [] ∧
      (getCWriter w none (.buffered own) 4096).1 = own ∧
      let objs := (putCWriter (getCWriter w none (.buffered own) 4096).2 own).objs
      (∃ objs', flushObj objs own = some (none, objs') ∧ ∀ b, objs'[own]? = some b → b.b.buf = [] ∧ b.dst = .nil) ∧
      ∃ objs', writeObj objs own [2] = some (1, none, objs') ∧ flushObj objs' own = none := by
  refine ⟨⟨[⟨⟨[1], 4096, none⟩, .plain (memWriter [])⟩], []⟩, 0, _, _, .buffered rfl (by decide) (.plain _) (by simp), ⟨by simp, by simp, by simp⟩,
    by simp, rfl, ⟨_, rfl, ?_⟩, _, rfl, rfl⟩
  intro b hb
  cases hb
  exact ⟨rfl, rfl⟩

/-! ## Agreement of the two models of a writer on a plain destination -/

/-- A writer of `Model.lean` as a writer of `Chain.lean`. -/
def BWriter.toC (b : BWriter) : CWriter := ⟨⟨b.buf, b.size, b.err⟩, b.dst.elim .nil .plain⟩

theorem drop_min {α : Type} (n : Nat) (l : List α) : l.drop (min n l.length) = l.drop n := by
  rcases Nat.le_total n l.length with h | h
  · rw [Nat.min_eq_left h]
  · rw [Nat.min_eq_right h, List.drop_length, List.drop_eq_nil_of_le h]

theorem flush_plain (buf : Bytes) (size : Nat) (err : Option Err) (d : Writer) :
    WBuf.flush plainSink ⟨buf, size, err⟩ d = (BWriter.flush ⟨buf, size, some d, err⟩).map fun x => (x.1, ⟨x.2.buf, x.2.size, x.2.err⟩, x.2.dst.getD d) := by
  unfold WBuf.flush BWriter.flush
  cases err with
  | some e => rfl
  | none =>
    simp only
    split
    · rfl
    · unfold plainSink Writer.write
      cases d.fail d.calls with
      | none => rfl
      | some e => simp [drop_min]

theorem flush_nil (buf : Bytes) (size : Nat) (err : Option Err) :
    WBuf.flush nilSink ⟨buf, size, err⟩ () = (BWriter.flush ⟨buf, size, none, err⟩).map fun x => (x.1, ⟨x.2.buf, x.2.size, x.2.err⟩, ()) := by
  unfold WBuf.flush BWriter.flush
  cases err with
  | some e => rfl
  | none =>
    simp only
    split <;> rfl

theorem flush_dst {b b' : BWriter} {e : Option Err} (h : b.flush = some (e, b')) : b'.dst.isSome = b.dst.isSome := by
  unfold BWriter.flush at h
  cases hb : b.err with
  | some e => rw [hb] at h; cases h; rfl
  | none =>
    rw [hb] at h
    simp only at h
    split at h
    · cases h; rfl
    · cases hd : b.dst with
      | none => rw [hd] at h; cases h
      | some d =>
        rw [hd] at h
        simp only at h
        generalize d.write b.buf = q at h
        obtain ⟨d', _ | e⟩ := q <;> (cases h; rfl)

theorem writeLoop_plain : ∀ (f : Nat) (buf : Bytes) (size : Nat) (err : Option Err) (d d0 : Writer) (p : Bytes),
    WBuf.writeLoop plainSink f ⟨buf, size, err⟩ d p =
      (BWriter.writeLoop f ⟨buf, size, some d, err⟩ p).map fun x => (x.1, ⟨x.2.buf, x.2.size, x.2.err⟩, x.2.dst.getD d0) := by
  intro f
  induction f with
  | zero => intros; rfl
  | succ f ih =>
    intro buf size err d d0 p
    unfold WBuf.writeLoop BWriter.writeLoop
    simp only
    split
    · rename_i hc
      obtain ⟨hc, rfl⟩ := hc
      split
      · have hp : plainSink d p = match d.write p with
          | (w', none) => some (p.length, none, w')
          | (w', some e) => some (min (d.part d.calls) p.length, some e, w') := rfl
        rw [hp]
        generalize d.write p = q
        obtain ⟨d', _ | e⟩ := q
        · simp only [List.drop_length]; exact ih _ _ _ _ _ _
        · simp only [drop_min]; exact ih _ _ _ _ _ _
      · rw [flush_plain]
        cases hfl : BWriter.flush ⟨buf ++ p.take (size - buf.length), size, some d, none⟩ with
        | none => rfl
        | some x =>
          obtain ⟨e, buf1, size1, dst1, err1⟩ := x
          have := flush_dst hfl
          cases dst1 with
          | none => simp at this
          | some d1 => exact ih _ _ _ _ _ _
    · rfl

theorem writeLoop_dst : ∀ (f : Nat) (b : BWriter) (p p' : Bytes) (b' : BWriter), BWriter.writeLoop f b p = some (p', b') → b.dst.isSome → b'.dst.isSome := by
  intro f
  induction f with
  | zero => intro b p p' b' h hd; cases h; exact hd
  | succ f ih =>
    intro b p p' b' h hd
    unfold BWriter.writeLoop at h
    split at h
    · split at h
      · cases hb : b.dst with
        | none => rw [hb] at h; cases h
        | some d =>
          rw [hb] at h
          simp only at h
          generalize d.write p = q at h
          obtain ⟨d', _ | e⟩ := q <;> exact ih _ _ _ _ h rfl
      · simp only at h
        cases hfl : BWriter.flush { b with buf := b.buf ++ p.take (b.size - b.buf.length) } with
        | none => rw [hfl] at h; cases h
        | some x =>
          obtain ⟨e, b1⟩ := x
          rw [hfl] at h
          exact ih _ _ _ _ h (by rw [flush_dst hfl]; exact hd)
    · cases h; exact hd

/-- The two models agree: on a writer with a plain destination `Write` and `Flush` of `Chain.lean` are those of `Model.lean`. -/
theorem C97_agrees (b : BWriter) (d : Writer) (hd : b.dst = some d) (id : Nat) (objs : List CWriter) (h : objs[id]? = some b.toC) :
    (flushObj objs id = b.flush.map fun x => (x.1, objs.set id x.2.toC)) ∧
    ∀ p, (writeObj objs id p).map (fun x => (x.2.1, x.2.2)) = (b.write p).map fun x => (x.1, objs.set id x.2.toC) := by
  have hlt := (List.getElem?_eq_some_iff.mp h).1
  obtain ⟨buf, size, dst, err⟩ := b
  cases hd
  constructor
  · unfold flushObj flushAt
    rw [h]
    simp only [BWriter.toC, Option.elim_some]
    rw [flush_plain]
    cases hfl : BWriter.flush ⟨buf, size, some d, err⟩ with
    | none => rfl
    | some x =>
      obtain ⟨e, buf1, size1, dst1, err1⟩ := x
      have := flush_dst hfl
      cases dst1 with
      | none => simp at this
      | some d1 => rfl
  · intro p
    unfold writeObj
    obtain ⟨m, hm⟩ : ∃ m, objs.length = m + 1 := ⟨objs.length - 1, by omega⟩
    rw [hm]
    unfold writeAt
    rw [h]
    simp only [BWriter.toC, Option.elim_some]
    unfold WBuf.write BWriter.write
    rw [writeLoop_plain _ _ _ _ _ d]
    cases hw : BWriter.writeLoop 3 ⟨buf, size, some d, err⟩ p with
    | none => rfl
    | some x =>
      obtain ⟨p', buf1, size1, dst1, err1⟩ := x
      have hdst : dst1.isSome := writeLoop_dst _ _ _ _ _ hw rfl
      cases dst1 with
      | none => simp at hdst
      | some d1 => cases err1 <;> rfl

/-! ## Non-vacuity -/

/-- A user's reader 0 with two bytes buffered of four left, and a pool with reader 1. -/
def demoR : RWorld := ⟨[⟨[1, 2], 16, .plain [3, 4], none⟩, ⟨[], 32, .nil, none⟩], [1]⟩

theorem demoR_yields : Yields demoR.objs (.buffered 0) [1, 2, 3, 4] [0] := .buffered (b := ⟨[1, 2], 16, .plain [3, 4], none⟩) rfl (.plain [3, 4]) (by simp)

theorem demoR_clean : RClean demoR [0] := ⟨by simp [demoR], by simp [demoR], by simp [demoR]⟩

/-- Reading three bytes through the pooled reader: two reads, as `Read` hands on what reader 0 has buffered. -/
theorem demoR_use : ∃ w', RUse [1, 0] (getReader demoR (some 0) (.buffered 0) 16).1 (getReader demoR (some 0) (.buffered 0) 16).2 [1, 2, 3] w' ∧
    (getReader demoR (some 0) (.buffered 0) 16).1 = 1 ∧ w'.objs[1]? = some ⟨[4], 32, .buffered 0, none⟩ :=
  ⟨_, .read (d := [3]) (err := none) 1 5 none (.read (d := [1, 2]) (err := none) 5 5 none (.refl _) rfl) rfl, rfl, rfl⟩

example : ∃ w' rest, ([1, 2, 3, 4] : Bytes) = [1, 2, 3] ++ [4] ++ rest ∧ Yields (putReader w' 1).objs (.buffered 0) rest [0] := by
  obtain ⟨w', h1, h2, h3⟩ := demoR_use
  obtain ⟨b, rest, e1, e2, e3⟩ := C98_reader_partial demoR_yields demoR_clean (some 0) 16 (by rw [h2]; decide) h1
  rw [h2] at e1 e3
  rw [h3] at e1
  cases e1
  exact ⟨w', rest, e2, e3⟩

/-- A user's writer 0 with one byte buffered, and a pool with writer 1. -/
def demoW : CWorld := ⟨[⟨⟨[1], 4, none⟩, .plain (memWriter [9])⟩, ⟨⟨[], 4, none⟩, .nil⟩], [1]⟩

theorem demoW_emits : Emits demoW.objs (.buffered 0) [9, 1] [0] := .buffered (b := ⟨⟨[1], 4, none⟩, .plain (memWriter [9])⟩) rfl (by decide) (.plain _) (by simp)

theorem demoW_clean : WClean demoW [0] := ⟨by simp [demoW], by simp [demoW], by simp [demoW]⟩

/-- Six bytes are written through the pooled writer and flushed: writer 0 passes four bytes on. -/
theorem demoW_use : ∃ w' objs', WUse [1, 0] (getCWriter demoW (some 0) (.buffered 0) 16).1 (getCWriter demoW (some 0) (.buffered 0) 16).2 [2, 3, 4, 5, 6, 7] w' ∧
    (getCWriter demoW (some 0) (.buffered 0) 16).1 = 1 ∧ flushObj w'.objs 1 = some (none, objs') ∧
    (objs'[0]?.map fun b => b.b.buf) = some [5, 6, 7] :=
  ⟨_, _, .write (n := 3) [5, 6, 7] (.write (n := 3) [2, 3, 4] (.refl _) rfl) rfl, rfl, rfl, rfl⟩

example : ∃ w : CWorld, Emits w.objs (.buffered 0) [9, 1, 2, 3, 4, 5, 6, 7] [0] := by
  obtain ⟨w', objs', h1, h2, h3, _⟩ := demoW_use
  have := C98_writer_partial demoW_emits demoW_clean (some 0) 16 (by rw [h2]; decide) h1 (by rw [h2]; exact h3)
  exact ⟨_, this⟩

/-- A destination that takes one byte and fails: one of the two bytes given to `Write` is accepted, and stays in the buffer. -/
example : ∃ objs', writeObj [⟨⟨[1], 2, none⟩, .plain ⟨[], 0, fun _ => some (.other 5), fun _ => 1⟩⟩] 0 [2, 3] = some (1, some (.other 5), objs') ∧
    (objs'[0]?.map fun b => b.b.buf) = some [2] := ⟨_, rfl, rfl⟩

/-! ## Exactly when C98 holds -/

/-- C98, for readers, exactly: the reader obtained for `own` is `own` itself if and only if the pool gives none and the buffer of `own` has at least
the requested size; and if it is `own` then after putting it back, whatever has happened in between, every `Read` of at least one byte from `own`
panics. In all other cases C98 holds (`C98_reader_partial`). -/
theorem C98_reader_exact {w : RWorld} {own : Nat} {l : Bytes} {ids : List Nat} (hy : Yields w.objs (.buffered own) l ids) (hc : RClean w ids)
    (choice : Option Nat) (size : Int) :
    ((getReader w choice (.buffered own) size).1 = own ↔
      choice.bind (w.pool[·]?) = none ∧ ∃ b, w.objs[own]? = some b ∧ size ≤ b.size) ∧
    ∀ (w' : RWorld) (n k : Nat) (e : Option Err), 1 ≤ n → readObj (putReader w' own).objs own n k e = none := by
  have ho : own ∈ ids := by cases hy with | buffered _ _ _ => exact List.mem_cons_self
  refine ⟨⟨fun h => ?_, fun ⟨h1, b, h2, h3⟩ => ?_⟩, fun w' n k e hn => ?_⟩
  · rcases (C96_get hy hc choice size).2 with ⟨_, _, _, h4, h5⟩ | ⟨h2, _⟩
    · rw [h] at h5; exact ⟨h4, h5⟩
    · rw [h] at h2
      exact absurd ho (List.nodup_cons.mp h2.nodup).1
  · have h3' : (b.size : Int) ≥ size := h3
    unfold getReader
    cases choice with
    | none => simp [h2, h3']
    | some i =>
      simp only [Option.bind_some] at h1
      simp [h1, h2, h3']
  · unfold readObj
    cases hl : (putReader w' own).objs.length with
    | zero => rfl
    | succ m =>
      unfold readAt
      cases hb : (putReader w' own).objs[own]? with
      | none => rfl
      | some b =>
        simp only [putReader, List.getElem?_modify, if_true, Option.map_eq_map, Option.map_eq_some_iff] at hb
        obtain ⟨b0, _, rfl⟩ := hb
        have : n ≠ 0 := by omega
        simp [BReader.reset, BReader.read, this]

example : (getReader demoR none (.buffered 0) 16).1 = 0 ∧ (getReader demoR (some 0) (.buffered 0) 16).1 ≠ 0 ∧ (getReader demoR none (.buffered 0) 17).1 ≠ 0 := by
  refine ⟨(C98_reader_exact demoR_yields demoR_clean none 16).1.mpr ⟨rfl, _, rfl, by decide⟩,
    fun h => ?_, fun h => ?_⟩
  · obtain ⟨h, _⟩ := (C98_reader_exact demoR_yields demoR_clean (some 0) 16).1.mp h
    simp [demoR] at h
  · obtain ⟨_, b, hb, h⟩ := (C98_reader_exact demoR_yields demoR_clean none 17).1.mp h
    simp [demoR] at hb
    subst hb
    simp at h

/-- C98, for writers, exactly: as for readers; if the writer is `own` then after putting it back what `own` had buffered is lost, and whatever is
written to `own` later does not arrive: the first `Flush` with something to write panics. -/
theorem C98_writer_exact {w : CWorld} {own : Nat} {a : Bytes} {ids : List Nat} (hy : Emits w.objs (.buffered own) a ids) (hc : WClean w ids)
    (choice : Option Nat) (size : Int) :
    ((getCWriter w choice (.buffered own) size).1 = own ↔
      choice.bind (w.pool[·]?) = none ∧ ∃ b, w.objs[own]? = some b ∧ size ≤ b.b.size) ∧
    ∀ (w' : CWorld) (b : CWriter), (putCWriter w' own).objs[own]? = some b → b.b.buf = [] ∧ b.dst = .nil ∧
      ∀ p, p ≠ [] → p.length ≤ b.b.size → ∃ objs', writeObj (putCWriter w' own).objs own p = some (p.length, none, objs') ∧ flushObj objs' own = none := by
  have ho : own ∈ ids := by cases hy with | buffered _ _ _ _ => exact List.mem_cons_self
  refine ⟨⟨fun h => ?_, fun ⟨h1, b, h2, h3⟩ => ?_⟩, fun w' b hb => ?_⟩
  · rcases (C97_get hy hc choice size).2 with ⟨_, _, _, h4, h5⟩ | ⟨h2, _⟩
    · rw [h] at h5; exact ⟨h4, h5⟩
    · rw [h] at h2
      exact absurd ho (List.nodup_cons.mp h2.nodup).1
  · have h3' : (b.b.size : Int) ≥ size := h3
    unfold getCWriter
    cases choice with
    | none => simp [h2, h3']
    | some i =>
      simp only [Option.bind_some] at h1
      simp [h1, h2, h3']
  · have hlt := (List.getElem?_eq_some_iff.mp hb).1
    have hb' := hb
    simp only [putCWriter, List.getElem?_modify, if_true, Option.map_eq_map, Option.map_eq_some_iff] at hb
    obtain ⟨b0, _, rfl⟩ := hb
    refine ⟨rfl, rfl, fun p hp hs => ?_⟩
    unfold writeObj
    obtain ⟨m, hm⟩ : ∃ m, (putCWriter w' own).objs.length = m + 1 := ⟨(putCWriter w' own).objs.length - 1, by omega⟩
    rw [hm]
    unfold writeAt
    rw [hb']
    have hs' : ¬ (p.length > b0.b.size) := by simp only [CWriter.reset] at hs; omega
    refine ⟨(putCWriter w' own).objs.set own ⟨⟨p, b0.b.size, none⟩, .nil⟩, ?_, ?_⟩
    · simp [CWriter.reset, WBuf.write, WBuf.writeLoop, hs']
    · unfold flushObj flushAt
      rw [List.getElem?_set_self hlt]
      simp [WBuf.flush, hp, nilSink]

example : (getCWriter demoW none (.buffered 0) 4).1 = 0 :=
  (C98_writer_exact demoW_emits demoW_clean none 4).1.mpr ⟨rfl, _, rfl, by decide⟩

end Verif.XIO

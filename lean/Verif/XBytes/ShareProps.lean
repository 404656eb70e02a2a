import Verif.XBytes.Share
/-! # Pooled buffers behave like private memory (C99) -/
namespace Verif.XBytes
open Verif.Go Verif.Conc

/-! ## Specification: a goroutine alone, whose buffers are its own -/

/-- A private buffer: its length, its capacity and its bytes. -/
structure PBuf where
  len : Nat
  cap : Nat
  data : Nat → UInt8

/-- A goroutine with private buffers. -/
structure PThread (α : Type) where
  code : Code α
  own : Nat → Option PBuf
  next : Nat

variable {α : Type}

/-- What a goroutine does when its buffers are its own: `make` gives zeros, `Malloc` gives a buffer of the right length
and capacity with any contents, `load` gives what was stored last. Nothing but its own steps changes its buffers. -/
inductive PStep : PThread α → PThread α → Prop where
  | make (l c : Nat) (k : Nat → Code α) (own : Nat → Option PBuf) (n : Nat) : l ≤ c →
      PStep ⟨.make l c k, own, n⟩ ⟨k n, upd own n (some ⟨l, c, fun _ => 0⟩), n + 1⟩
  | makeBad (l c : Nat) (k : Nat → Code α) (own : Nat → Option PBuf) (n : Nat) : c < l →
      PStep ⟨.make l c k, own, n⟩ ⟨.bad, own, n⟩
  | malloc (size capacity : Int) (k : Nat → Code α) (own : Nat → Option PBuf) (n : Nat) (d : Nat → UInt8) : 0 ≤ size →
      PStep ⟨.malloc size capacity k, own, n⟩ ⟨k n, upd own n (some ⟨size.toNat, (max size capacity).toNat, d⟩), n + 1⟩
  | mallocBad (size capacity : Int) (k : Nat → Code α) (own : Nat → Option PBuf) (n : Nat) : size < 0 →
      PStep ⟨.malloc size capacity k, own, n⟩ ⟨.bad, own, n⟩
  | free (h : Nat) (k : Code α) (own : Nat → Option PBuf) (n : Nat) (b : PBuf) : own h = some b →
      PStep ⟨.free h k, own, n⟩ ⟨k, upd own h none, n⟩
  | freeBad (h : Nat) (k : Code α) (own : Nat → Option PBuf) (n : Nat) : own h = none →
      PStep ⟨.free h k, own, n⟩ ⟨.bad, own, n⟩
  | reslice (h lo hi : Nat) (k : Code α) (own : Nat → Option PBuf) (n : Nat) (b : PBuf) : own h = some b → lo ≤ hi →
      hi ≤ b.cap → PStep ⟨.reslice h lo hi k, own, n⟩ ⟨k, upd own h (some ⟨hi - lo, b.cap - lo, fun j => b.data (lo + j)⟩), n⟩
  | resliceBad (h lo hi : Nat) (k : Code α) (own : Nat → Option PBuf) (n : Nat) :
      (∀ b, own h = some b → ¬ (lo ≤ hi ∧ hi ≤ b.cap)) → PStep ⟨.reslice h lo hi k, own, n⟩ ⟨.bad, own, n⟩
  | load (h i : Nat) (k : UInt8 → Code α) (own : Nat → Option PBuf) (n : Nat) (b : PBuf) : own h = some b → i < b.len →
      PStep ⟨.load h i k, own, n⟩ ⟨k (b.data i), own, n⟩
  | loadBad (h i : Nat) (k : UInt8 → Code α) (own : Nat → Option PBuf) (n : Nat) : (∀ b, own h = some b → ¬ i < b.len) →
      PStep ⟨.load h i k, own, n⟩ ⟨.bad, own, n⟩
  | store (h i : Nat) (v : UInt8) (k : Code α) (own : Nat → Option PBuf) (n : Nat) (b : PBuf) : own h = some b → i < b.len →
      PStep ⟨.store h i v k, own, n⟩ ⟨k, upd own h (some { b with data := fun j => if j = i then v else b.data j }), n⟩
  | storeBad (h i : Nat) (v : UInt8) (k : Code α) (own : Nat → Option PBuf) (n : Nat) :
      (∀ b, own h = some b → ¬ i < b.len) → PStep ⟨.store h i v k, own, n⟩ ⟨.bad, own, n⟩

/-- The states a goroutine that runs `c` can be in. -/
inductive PReach (c : Code α) : PThread α → Prop where
  | start : PReach c ⟨c, fun _ => none, 0⟩
  | step {p p' : PThread α} : PReach c p → PStep p p' → PReach c p'

/-- A slice of the shared memory looks like the private buffer: length, capacity and all bytes up to the capacity. -/
def Same (m : Mem) : Option Slice → Option PBuf → Prop
  | none, none => True
  | some s, some b => b.len = s.len ∧ b.cap = s.reg.cap ∧ ∀ i < s.reg.cap, b.data i = m s.reg.arr (s.reg.off + i)
  | _, _ => False

/-! ## Ownership -/

theorem Inv.perm {hp : Heap} {l l' : List Region} (h : Inv ⟨hp, l⟩) (hl : l.Perm l') : Inv ⟨hp, l'⟩ :=
  ⟨hl.pairwise h.live (fun h => h.symm), h.pool, h.cross, fun r hr => h.lp r (hl.mem_iff.mpr hr),
    fun r hr => h.freshL r (hl.mem_iff.mpr hr), h.freshP⟩

theorem Inv.tail {hp : Heap} {r : Region} {l : List Region} (h : Inv ⟨hp, r :: l⟩) : Inv ⟨hp, l⟩ := inv_drop h 0

/-- Keys own windows such that any list of them satisfies the invariant of C34. -/
def Owns (hp : Heap) (own : Nat × Nat → Option Region) : Prop := ∀ L : List (Nat × Nat), L.Nodup → Inv ⟨hp, L.filterMap own⟩

/-- Proof only: change of one value of a function. -/
def updK (own : Nat × Nat → Option Region) (k : Nat × Nat) (x : Option Region) : Nat × Nat → Option Region :=
  fun k' => if k' = k then x else own k'

theorem filterMap_updK {own : Nat × Nat → Option Region} {k : Nat × Nat} {x : Option Region} {L : List (Nat × Nat)} (h : k ∉ L) :
    L.filterMap (updK own k x) = L.filterMap own := by
  refine List.filterMap_congr fun a ha => ?_
  simp only [updK]
  rw [if_neg]
  rintro rfl
  exact h ha

theorem Owns.upd {hp hp' : Heap} {own : Nat × Nat → Option Region} {k : Nat × Nat} {x : Option Region} (h : Owns hp own)
    (hs : ∀ l, Inv ⟨hp, (own k).toList ++ l⟩ → Inv ⟨hp', x.toList ++ l⟩) : Owns hp' (updK own k x) := by
  have hcons : ∀ (own : Nat × Nat → Option Region) L, (k :: L).filterMap own = (own k).toList ++ L.filterMap own := by
    intro own L
    rw [List.filterMap_cons]
    cases own k <;> rfl
  have key : ∀ L : List (Nat × Nat), k ∉ L → L.Nodup → Inv ⟨hp', x.toList ++ L.filterMap (updK own k x)⟩ := by
    intro L hk hn
    rw [filterMap_updK hk]
    refine hs _ ?_
    rw [← hcons]
    exact h _ (List.nodup_cons.mpr ⟨hk, hn⟩)
  have hx : (updK own k x) k = x := by simp [updK]
  intro L hn
  by_cases hk : k ∈ L
  · have hp1 := List.perm_cons_erase hk
    have hn1 : (k :: L.erase k).Nodup := hp1.nodup_iff.mp hn
    have := key _ (List.nodup_cons.mp hn1).1 (List.nodup_cons.mp hn1).2
    have e := hcons (updK own k x) (L.erase k)
    rw [hx] at e
    rw [← e] at this
    exact this.perm (hp1.symm.filterMap _)
  · have := key L hk hn
    cases x with
    | none => exact this
    | some r => exact Inv.tail this

theorem Owns.disjoint {hp : Heap} {own : Nat × Nat → Option Region} (h : Owns hp own) {k k' : Nat × Nat} (hne : k ≠ k')
    {r r' : Region} (h1 : own k = some r) (h2 : own k' = some r') : Disjoint r r' := by
  have := (h [k, k'] (by simp [hne])).live
  simp [h1, h2] at this
  exact this

theorem Owns.fresh {hp : Heap} {own : Nat × Nat → Option Region} (h : Owns hp own) {k : Nat × Nat} {r : Region}
    (h1 : own k = some r) : r.arr < hp.next := by
  have := (h [k] (by simp)).freshL r (by simp [h1])
  exact this

/-! ## The invariant -/

/-- The windows of all goroutines. -/
def Sys.own (y : Sys α) : Nat × Nat → Option Region := fun k => ((y.th k.1).own k.2).map (·.reg)

/-- Proof only: part of an invariant or simulation; models no code. -/
structure SInv (cs : Nat → Code α) (y : Sys α) : Prop where
  owns : Owns y.heap y.own
  key : KeyInv y.heap
  len : ∀ i h s, (y.th i).own h = some s → s.len ≤ s.reg.cap
  zero : ∀ a i, y.heap.next ≤ a → y.mem a i = 0
  priv : ∀ i, ∃ p, PReach (cs i) p ∧ p.code = (y.th i).code ∧ p.next = (y.th i).next ∧
    ∀ h, Same y.mem ((y.th i).own h) (p.own h)

theorem same_none {m : Mem} {x : Option PBuf} (h : Same m none x) : x = none := by cases x <;> simp_all [Same]

theorem same_some {m : Mem} {s : Slice} {x : Option PBuf} (h : Same m (some s) x) :
    ∃ b, x = some b ∧ b.len = s.len ∧ b.cap = s.reg.cap ∧ ∀ i < s.reg.cap, b.data i = m s.reg.arr (s.reg.off + i) := by
  cases x with
  | none => exact absurd h (by simp [Same])
  | some b => exact ⟨b, rfl, h⟩

theorem own_upd_th (y : Sys α) (hp : Heap) (m : Mem) (i : Nat) (c : Code α) (h : Nat) (x : Option Slice) (n : Nat) :
    (Sys.mk hp m (upd y.th i ⟨c, upd (y.th i).own h x, n⟩)).own = updK y.own (i, h) (x.map (·.reg)) := by
  funext ⟨j, h'⟩
  simp only [Sys.own, updK, Prod.mk.injEq]
  by_cases hj : j = i
  · subst hj
    by_cases hh : h' = h
    · subst hh; simp
    · simp [upd_ne _ _ hh, hh]
  · simp [upd_ne _ _ hj, hj]

theorem own_upd_code (y : Sys α) (hp : Heap) (m : Mem) (i : Nat) (t : Thread α) (ht : t.own = (y.th i).own) :
    (Sys.mk hp m (upd y.th i t)).own = y.own := by
  funext ⟨j, h'⟩
  simp only [Sys.own]
  by_cases hj : j = i
  · subst hj; simp [ht]
  · simp [upd_ne _ _ hj]

/-- A step that changes one handle of one goroutine and no memory. -/
theorem SInv.change {cs : Nat → Code α} {y : Sys α} (hi : SInv cs y) {hp : Heap} {i h : Nat} {c : Code α} {x : Option Slice} {n : Nat}
    {p : PThread α} {xb : Option PBuf}
    (hown : ∀ l, Inv ⟨y.heap, (y.own (i, h)).toList ++ l⟩ → Inv ⟨hp, (x.map (·.reg)).toList ++ l⟩)
    (hkey : KeyInv hp) (hlen : ∀ s, x = some s → s.len ≤ s.reg.cap) (hnext : y.heap.next ≤ hp.next)
    (hsame : ∀ h, Same y.mem ((y.th i).own h) (p.own h)) (hx : Same y.mem x xb) (hp' : PReach (cs i) ⟨c, upd p.own h xb, n⟩) :
    SInv cs ⟨hp, y.mem, upd y.th i ⟨c, upd (y.th i).own h x, n⟩⟩ := by
  refine ⟨?_, hkey, ?_, fun a j ha => hi.zero a j (by simp only at ha; omega), ?_⟩
  · rw [own_upd_th]
    exact hi.owns.upd hown
  · intro j h' s hs
    by_cases hj : j = i
    · subst hj
      simp only [upd_same] at hs
      by_cases hh : h' = h
      · subst hh; rw [upd_same] at hs; exact hlen s hs
      · rw [upd_ne _ _ hh] at hs; exact hi.len _ _ _ hs
    · simp only [upd_ne _ _ hj] at hs
      exact hi.len _ _ _ hs
  · intro j
    by_cases hj : j = i
    · subst hj
      simp only [upd_same]
      refine ⟨_, hp', rfl, rfl, fun h' => ?_⟩
      by_cases hh : h' = h
      · subst hh; simpa using hx
      · simpa [upd_ne _ _ hh] using hsame h'
    · simp only [upd_ne _ _ hj]
      exact hi.priv j

/-- A step that changes only the program of one goroutine (and, possibly, pools). -/
theorem SInv.stay {cs : Nat → Code α} {y : Sys α} (hi : SInv cs y) {hp : Heap} {i : Nat} {c : Code α} {p : PThread α}
    (hown : ∀ l, Inv ⟨y.heap, l⟩ → Inv ⟨hp, l⟩) (hkey : KeyInv hp) (hnext : y.heap.next ≤ hp.next)
    (hsame : ∀ h, Same y.mem ((y.th i).own h) (p.own h)) (hp' : PReach (cs i) ⟨c, p.own, (y.th i).next⟩) :
    SInv cs ⟨hp, y.mem, upd y.th i { y.th i with code := c }⟩ := by
  refine ⟨?_, hkey, ?_, fun a j ha => hi.zero a j (by simp only at ha; omega), ?_⟩
  · have e := own_upd_code y hp y.mem i { y.th i with code := c } rfl
    rw [e]
    exact fun L hL => hown _ (hi.owns L hL)
  · intro j h' s hs
    by_cases hj : j = i
    · subst hj; simp only [upd_same] at hs; exact hi.len _ _ _ hs
    · simp only [upd_ne _ _ hj] at hs; exact hi.len _ _ _ hs
  · intro j
    by_cases hj : j = i
    · subst hj
      simp only [upd_same]
      exact ⟨_, hp', rfl, rfl, hsame⟩
    · simp only [upd_ne _ _ hj]
      exact hi.priv j

theorem malloc_next (hp : Heap) (ch : Option Nat) (size capacity : Int) : hp.next ≤ (malloc hp ch size capacity).2.next := by
  have hm : ∀ c, hp.next ≤ (make hp c).2.next := by intro c; unfold make; split <;> simp
  have hg : ∀ c, hp.next ≤ (poolGet hp c ch).2.next := by
    intro c
    unfold poolGet
    cases ch with
    | none => exact hm c
    | some i =>
      simp only
      cases (hp.pools c)[i]? with
      | none => exact hm c
      | some r => simp [Heap.setPool]
  unfold malloc
  have := hg (if capacity > size then capacity else size)
  simp only
  generalize poolGet hp (if capacity > size then capacity else size) ch = q at this
  obtain ⟨_ | r, h'⟩ := q
  · exact this
  · simp only; split <;> exact this

theorem malloc_some {hp hp' : Heap} (hk : KeyInv hp) {ch : Option Nat} {size capacity : Int} {s : Slice}
    (h : malloc hp ch size capacity = (some s, hp')) : 0 ≤ size ∧ s.len = size.toNat ∧ s.reg.cap = (max size capacity).toNat := by
  have hg := (keyInv_poolGet hk (if capacity > size then capacity else size) ch).2.1
  unfold malloc at h
  simp only at h
  generalize poolGet hp (if capacity > size then capacity else size) ch = q at hg h
  obtain ⟨_ | r, h'⟩ := q
  · simp at h
  · simp only at h
    split at h
    · rename_i h0
      simp only [Prod.mk.injEq, Option.some.injEq] at h
      obtain ⟨rfl, rfl⟩ := h
      have := hg r rfl
      refine ⟨h0.1, rfl, ?_⟩
      simp only
      split at this <;> omega
    · simp at h

theorem malloc_none {hp hp' : Heap} (hk : KeyInv hp) {ch : Option Nat} {size capacity : Int}
    (h : malloc hp ch size capacity = (none, hp')) : size < 0 := by
  have hg := keyInv_poolGet hk (if capacity > size then capacity else size) ch
  unfold malloc at h
  simp only at h
  generalize poolGet hp (if capacity > size then capacity else size) ch = q at hg h
  obtain ⟨_ | r, h'⟩ := q
  · have := hg.2.2
    by_contra hc
    exact this (by split <;> omega) rfl
  · simp only at h
    split at h
    · simp at h
    · have := hg.2.1 r rfl
      split at this <;> omega

theorem inv_next {hp : Heap} {l : List Region} (h : Inv ⟨hp, l⟩) (c : Nat) :
    Inv ⟨{ hp with next := hp.next + 1 }, ⟨hp.next, 0, c⟩ :: l⟩ := by
  refine inv_step h (.alloc _ (c : Int) _ _ ?_)
  simp [make]

theorem sinv_step {cs : Nat → Code α} {y y' : Sys α} (hi : SInv cs y) (hs : Sys.Step y y') : SInv cs y' := by
  cases hs with
  | evict c i =>
    refine ⟨fun L hL => inv_evict (hi.owns L hL) c i, keyInv_act hi.key (.evict c i), hi.len, hi.zero, hi.priv⟩
  | run i ch hp m t h =>
    obtain ⟨p, hr, hc, hn, hsame⟩ := hi.priv i
    obtain ⟨pc, pown, pn⟩ := p
    simp only at hc hn hsame
    subst hc hn
    unfold tstep at h
    split at h
    · simp at h
    · simp at h
    · -- make
      rename_i l c k hcode
      rw [hcode] at hr
      split at h
      · rename_i hle
        simp only [Option.some.injEq, Prod.mk.injEq] at h
        obtain ⟨rfl, rfl, rfl⟩ := h
        refine hi.change (p := ⟨.bad, pown, 0⟩) (xb := some ⟨l, c, fun _ => 0⟩) ?_ ?_ ?_ ?_ hsame ?_ (.step hr (.make _ _ _ _ _ hle))
        · intro L hL
          refine inv_next ?_ c
          cases hx : y.own (i, (y.th i).next) with
          | none => rw [hx] at hL; exact hL
          | some r => rw [hx] at hL; exact hL.tail
        · exact hi.key
        · intro s hs; simp at hs; subst hs; exact hle
        · simp
        · refine ⟨rfl, rfl, fun j hj => ?_⟩
          exact (hi.zero _ _ (by simp)).symm
      · rename_i hle
        simp only [Option.some.injEq, Prod.mk.injEq] at h
        obtain ⟨rfl, rfl, rfl⟩ := h
        exact hi.stay (p := ⟨.bad, pown, 0⟩) (fun _ h => h) hi.key (by simp) hsame (.step hr (.makeBad _ _ _ _ _ (by omega)))
    · -- malloc
      rename_i size capacity k hcode
      rw [hcode] at hr
      have hk' := keyInv_act hi.key (.malloc ch size capacity)
      have hnx := malloc_next y.heap ch size capacity
      simp only [act] at hk'
      split at h
      · rename_i hp0 hm
        rw [hm] at hk' hnx
        simp only [Option.some.injEq, Prod.mk.injEq] at h
        obtain ⟨rfl, rfl, rfl⟩ := h
        refine hi.stay (p := ⟨.bad, pown, 0⟩) (fun l hl => ?_) hk' hnx hsame (.step hr (.mallocBad _ _ _ _ _ (malloc_none hi.key hm)))
        exact inv_step hl (.mallocPanic ⟨y.heap, l⟩ ch size capacity _ hm)
      · rename_i s hp0 hm
        rw [hm] at hk' hnx
        simp only [Option.some.injEq, Prod.mk.injEq] at h
        obtain ⟨rfl, rfl, rfl⟩ := h
        obtain ⟨h0, h1, h2⟩ := malloc_some hi.key hm
        refine hi.change (p := ⟨.bad, pown, 0⟩) (xb := some ⟨size.toNat, (max size capacity).toNat, fun j => y.mem s.reg.arr (s.reg.off + j)⟩)
          ?_ hk' ?_ hnx hsame ⟨h1.symm, h2.symm, fun _ _ => rfl⟩ (.step hr (.malloc _ _ _ _ _ _ h0))
        · intro L hL
          have hL' : Inv ⟨y.heap, L⟩ := by
            cases hx : y.own (i, (y.th i).next) with
            | none => rw [hx] at hL; exact hL
            | some r => rw [hx] at hL; exact hL.tail
          exact inv_step hL' (.malloc ⟨y.heap, L⟩ ch size capacity s _ hm)
        · intro s' hs; simp at hs; subst hs; rw [h1, h2]; omega
    · -- free
      rename_i hd k hcode
      rw [hcode] at hr
      have hsm := hsame hd
      split at h
      · rename_i hown
        rw [hown] at hsm
        simp only [Option.some.injEq, Prod.mk.injEq] at h
        obtain ⟨rfl, rfl, rfl⟩ := h
        exact hi.stay (p := ⟨.bad, pown, 0⟩) (fun _ h => h) hi.key (by simp) hsame (.step hr (.freeBad _ _ _ _ (same_none hsm)))
      · rename_i s hown
        rw [hown] at hsm
        obtain ⟨b, hb, -⟩ := same_some hsm
        simp only [Option.some.injEq, Prod.mk.injEq] at h
        obtain ⟨rfl, rfl, rfl⟩ := h
        refine hi.change (p := ⟨.bad, pown, 0⟩) (xb := none) ?_ (keyInv_act hi.key (.free s)) (by simp) ?_ hsame trivial (.step hr (.free _ _ _ _ b hb))
        · intro L hL
          have : y.own (i, hd) = some s.reg := by simp [Sys.own, hown]
          rw [this] at hL
          have := inv_step hL (.free ⟨y.heap, s.reg :: L⟩ 0 (by simp) s.len)
          exact this
        · simp [free, Heap.setPool]
    · -- reslice
      rename_i hd lo hi' k hcode
      rw [hcode] at hr
      have hsm := hsame hd
      split at h
      · rename_i hown
        rw [hown] at hsm
        simp only [Option.some.injEq, Prod.mk.injEq] at h
        obtain ⟨rfl, rfl, rfl⟩ := h
        exact hi.stay (p := ⟨.bad, pown, 0⟩) (fun _ h => h) hi.key (by simp) hsame
          (.step hr (.resliceBad _ _ _ _ _ _ (by simp [same_none hsm])))
      · rename_i s hown
        rw [hown] at hsm
        obtain ⟨b, hb, hb1, hb2, hb3⟩ := same_some hsm
        split at h
        · rename_i hle
          simp only [Option.some.injEq, Prod.mk.injEq] at h
          obtain ⟨rfl, rfl, rfl⟩ := h
          refine hi.change (p := ⟨.bad, pown, 0⟩) (xb := some ⟨hi' - lo, b.cap - lo, fun j => b.data (lo + j)⟩) ?_ hi.key ?_ (by simp) hsame ?_
            (.step hr (.reslice _ _ _ _ _ _ b hb hle.1 (by omega)))
          · intro L hL
            have : y.own (i, hd) = some s.reg := by simp [Sys.own, hown]
            rw [this] at hL
            have := inv_step hL (.split ⟨y.heap, s.reg :: L⟩ 0 (by simp) [⟨s.reg.arr, s.reg.off + lo, s.reg.cap - lo⟩]
              (by simp [Within]; omega) (by simp))
            exact this
          · intro s' hs; simp at hs; subst hs; simp only; omega
          · refine ⟨rfl, by simp [hb2], fun j hj => ?_⟩
            simp only at hj ⊢
            rw [hb3 _ (by omega), Nat.add_assoc]
        · rename_i hle
          simp only [Option.some.injEq, Prod.mk.injEq] at h
          obtain ⟨rfl, rfl, rfl⟩ := h
          refine hi.stay (p := ⟨.bad, pown, 0⟩) (fun _ h => h) hi.key (by simp) hsame (.step hr (.resliceBad _ _ _ _ _ _ ?_))
          intro b' hb'
          rw [hb] at hb'
          simp at hb'; subst hb'; rw [hb2]; exact hle
    · -- load
      rename_i hd j k hcode
      rw [hcode] at hr
      have hsm := hsame hd
      split at h
      · rename_i hown
        rw [hown] at hsm
        simp only [Option.some.injEq, Prod.mk.injEq] at h
        obtain ⟨rfl, rfl, rfl⟩ := h
        exact hi.stay (p := ⟨.bad, pown, 0⟩) (fun _ h => h) hi.key (by simp) hsame
          (.step hr (.loadBad _ _ _ _ _ (by simp [same_none hsm])))
      · rename_i s hown
        rw [hown] at hsm
        obtain ⟨b, hb, hb1, hb2, hb3⟩ := same_some hsm
        have hle := hi.len i hd s hown
        split at h
        · rename_i hlt
          simp only [Option.some.injEq, Prod.mk.injEq] at h
          obtain ⟨rfl, rfl, rfl⟩ := h
          refine hi.stay (p := ⟨.bad, pown, 0⟩) (fun _ h => h) hi.key (by simp) hsame ?_
          rw [← hb3 j (by omega)]
          exact .step hr (.load _ _ _ _ _ b hb (by omega))
        · rename_i hlt
          simp only [Option.some.injEq, Prod.mk.injEq] at h
          obtain ⟨rfl, rfl, rfl⟩ := h
          refine hi.stay (p := ⟨.bad, pown, 0⟩) (fun _ h => h) hi.key (by simp) hsame (.step hr (.loadBad _ _ _ _ _ ?_))
          intro b' hb'
          rw [hb] at hb'
          simp at hb'; subst hb'; omega
    · -- store
      rename_i hd j v k hcode
      rw [hcode] at hr
      have hsm := hsame hd
      split at h
      · rename_i hown
        rw [hown] at hsm
        simp only [Option.some.injEq, Prod.mk.injEq] at h
        obtain ⟨rfl, rfl, rfl⟩ := h
        exact hi.stay (p := ⟨.bad, pown, 0⟩) (fun _ h => h) hi.key (by simp) hsame
          (.step hr (.storeBad _ _ _ _ _ _ (by simp [same_none hsm])))
      · rename_i s hown
        rw [hown] at hsm
        obtain ⟨b, hb, hb1, hb2, hb3⟩ := same_some hsm
        have hle := hi.len i hd s hown
        have hreg : y.own (i, hd) = some s.reg := by simp [Sys.own, hown]
        split at h
        · rename_i hlt
          simp only [Option.some.injEq, Prod.mk.injEq] at h
          obtain ⟨rfl, rfl, rfl⟩ := h
          -- the byte written is in no other buffer
          have hother : ∀ i' h' s', (i', h') ≠ (i, hd) → (y.th i').own h' = some s' → ∀ q < s'.reg.cap,
              y.mem.set s.reg.arr (s.reg.off + j) v s'.reg.arr (s'.reg.off + q) = y.mem s'.reg.arr (s'.reg.off + q) := by
            intro i' h' s' hne hs' q hq
            have hreg' : y.own (i', h') = some s'.reg := by simp [Sys.own, hs']
            have hd' := hi.owns.disjoint hne hreg' hreg
            simp only [Mem.set]
            rw [if_neg]
            rintro ⟨e1, e2⟩
            exact hd' (s'.reg.off + q) ⟨e1, by omega, by omega, by omega, by omega⟩
          have hsameO : ∀ i' h' x, (i', h') ≠ (i, hd) → Same y.mem ((y.th i').own h') x →
              Same (y.mem.set s.reg.arr (s.reg.off + j) v) ((y.th i').own h') x := by
            intro i' h' x hne hx
            cases hs' : (y.th i').own h' with
            | none => rw [hs'] at hx; rw [same_none hx]; trivial
            | some s' =>
              rw [hs'] at hx
              obtain ⟨b', rfl, g1, g2, g3⟩ := same_some hx
              exact ⟨g1, g2, fun q hq => by rw [g3 q hq, hother i' h' s' hne hs' q hq]⟩
          refine ⟨?_, hi.key, ?_, ?_, ?_⟩
          · have e := own_upd_code y y.heap (y.mem.set s.reg.arr (s.reg.off + j) v) i { y.th i with code := k } rfl
            rw [e]; exact hi.owns
          · intro j' h' s' hs'
            by_cases hj : j' = i
            · subst hj; simp only [upd_same] at hs'; exact hi.len _ _ _ hs'
            · simp only [upd_ne _ _ hj] at hs'; exact hi.len _ _ _ hs'
          · intro a q ha
            have := hi.owns.fresh hreg
            simp only at ha
            simp only [Mem.set]
            rw [if_neg (by omega)]
            exact hi.zero a q ha
          · intro j'
            by_cases hj : j' = i
            · subst hj
              simp only [upd_same]
              refine ⟨_, .step hr (.store _ _ _ _ _ _ b hb (by omega)), rfl, rfl, fun h' => ?_⟩
              by_cases hh : h' = hd
              · subst hh
                simp only [upd_same, hown]
                refine ⟨hb1, hb2, fun q hq => ?_⟩
                simp only [Mem.set, true_and]
                by_cases hqj : q = j
                · subst hqj; simp
                · rw [if_neg hqj, if_neg (by omega)]; exact hb3 q hq
              · simp only [upd_ne _ _ hh]
                exact hsameO _ _ _ (by simp [hh]) (hsame h')
            · simp only [upd_ne _ _ hj]
              obtain ⟨p', a1, a2, a3, a4⟩ := hi.priv j'
              exact ⟨p', a1, a2, a3, fun h' => hsameO _ _ _ (by simp [hj]) (a4 h')⟩
        · rename_i hlt
          simp only [Option.some.injEq, Prod.mk.injEq] at h
          obtain ⟨rfl, rfl, rfl⟩ := h
          refine hi.stay (p := ⟨.bad, pown, 0⟩) (fun _ h => h) hi.key (by simp) hsame (.step hr (.storeBad _ _ _ _ _ _ ?_))
          intro b' hb'
          rw [hb] at hb'
          simp at hb'; subst hb'; omega

theorem sinv_reach {cs : Nat → Code α} {y : Sys α} (h : Sys.Reach cs y) : SInv cs y := by
  induction h with
  | start =>
    refine ⟨fun L _ => ?_, fun c r hr => by simp [Sys.start, init] at hr, fun i h s hs => by simp [Sys.start] at hs, fun _ _ _ => rfl,
      fun i => ⟨_, .start, rfl, rfl, fun _ => trivial⟩⟩
    have : L.filterMap (Sys.start cs).own = [] := by
      rw [List.filterMap_eq_nil_iff]
      intro a _
      rfl
    rw [this]
    constructor <;> simp [Sys.start, init]
  | step _ hs ih => exact sinv_step ih hs

/-! ## C99 -/

/-- C99: pooled buffers behave like private memory. In every state of every program of any number of goroutines that
share the pools, whatever the interleaving, the choices of the pools and the garbage collector, each goroutine is in a
state that it could also be in if it ran alone with buffers of its own (`PReach`): the same rest of program – hence the
same bytes loaded and the same result – and buffers of the same length, capacity and contents. -/
theorem C99_private {cs : Nat → Code α} {y : Sys α} (h : Sys.Reach cs y) (i : Nat) :
    ∃ p, PReach (cs i) p ∧ p.code = (y.th i).code ∧ ∀ h, Same y.mem ((y.th i).own h) (p.own h) := by
  obtain ⟨p, h1, h2, -, h3⟩ := (sinv_reach h).priv i
  exact ⟨p, h1, h2, h3⟩

/-- C99: no data races. Two different buffers, of the same or of different goroutines, never share a byte, up to their
capacities; so two goroutines never access the same byte of memory at the same time. -/
theorem C99_no_race {cs : Nat → Code α} {y : Sys α} (hr : Sys.Reach cs y) {i j h h' : Nat} {s s' : Slice}
    (hs : (y.th i).own h = some s) (hs' : (y.th j).own h' = some s') (hne : (i, h) ≠ (j, h')) : Disjoint s.reg s'.reg :=
  (sinv_reach hr).owns.disjoint hne (by simp [Sys.own, hs]) (by simp [Sys.own, hs'])

/-- C99: no goroutine waits for another: unless it has finished or panicked, each can make its next step now, for every
choice of the pool. -/
theorem C99_no_wait (y : Sys α) (i : Nat) (ch : Option Nat) :
    ((∃ a, (y.th i).code = .ret a) ∨ (y.th i).code = .bad) ∨ ∃ y', Sys.Step y y' ∧ (∀ j, j ≠ i → y'.th j = y.th j) ∧
      (tstep y.heap y.mem ch (y.th i)).map (·.2.2) = some (y'.th i) := by
  have hrun : ∀ q, tstep y.heap y.mem ch (y.th i) = some q → ∃ y', Sys.Step y y' ∧ (∀ j, j ≠ i → y'.th j = y.th j) ∧
      (tstep y.heap y.mem ch (y.th i)).map (·.2.2) = some (y'.th i) := by
    rintro ⟨hp, m, t⟩ hq
    exact ⟨_, .run y i ch hp m t hq, fun j hj => upd_ne _ _ hj, by simp [hq]⟩
  cases hq : tstep y.heap y.mem ch (y.th i) with
  | some q => right; rw [← hq]; exact hrun q hq
  | none =>
    left
    unfold tstep at hq
    repeat' split at hq
    all_goals simp_all

/-- Steps of given goroutines with given choices of the pool. -/
def Sys.play : List (Nat × Option Nat) → Sys α → Option (Sys α)
  | [], y => some y
  | (i, ch) :: l, y => match tstep y.heap y.mem ch (y.th i) with
    | none => none
    | some (hp, m, t) => Sys.play l ⟨hp, m, upd y.th i t⟩

theorem Sys.play_reach {cs : Nat → Code α} : ∀ (l : List (Nat × Option Nat)) {y y' : Sys α}, Sys.Reach cs y → Sys.play l y = some y' →
    Sys.Reach cs y'
  | [], _, _, h, hp => by simp [Sys.play] at hp; exact hp ▸ h
  | (i, ch) :: l, y, y', h, hp => by
    simp only [Sys.play] at hp
    split at hp
    · simp at hp
    · rename_i hp' m t ht
      exact Sys.play_reach l (.step h (.run y i ch hp' m t ht)) hp

/-- Goroutine 0 fills a buffer and frees it; the others take a buffer of the same size, look at its old contents, change
them and look again. -/
def demoShare : Nat → Code (UInt8 × UInt8)
  | 0 => .malloc 2 2 fun h => .store h 1 7 <| .free h <| .malloc 2 2 fun h => .load h 1 fun x => .store h 1 5 <| .load h 1 fun z => .ret (x, z)
  | _ => .malloc 2 2 fun h => .load h 1 fun x => .store h 1 9 <| .load h 1 fun z => .ret (x, z)

/-- Goroutine 1 gets the buffer that goroutine 0 has freed, sees its old contents, and then both work at the same time. -/
theorem demoShare_run : ∃ y, Sys.Reach demoShare y ∧ (y.th 0).code = .ret (0, 5) ∧ (y.th 1).code = .ret (7, 9) ∧
    (y.th 0).own 1 = some ⟨⟨1, 0, 2⟩, 2⟩ ∧ (y.th 1).own 0 = some ⟨⟨0, 0, 2⟩, 2⟩ :=
  ⟨_, Sys.play_reach [(0, none), (0, none), (0, none), (1, some 0), (0, none), (1, none), (0, none), (1, none),
    (0, none), (1, none), (0, none)] .start rfl, rfl, rfl, rfl, rfl⟩

example : ∃ y, Sys.Reach demoShare y ∧ (∃ p, PReach (demoShare 1) p ∧ p.code = .ret (7, 9)) ∧
    ∃ s s', (y.th 0).own 1 = some s ∧ (y.th 1).own 0 = some s' ∧ Disjoint s.reg s'.reg :=
  demoShare_run.elim fun y h => ⟨y, h.1, (C99_private h.1 1).elim fun p hp => ⟨p, hp.1, hp.2.1.trans h.2.2.1⟩,
    _, _, h.2.2.2.1, h.2.2.2.2, C99_no_race h.1 h.2.2.2.1 h.2.2.2.2 (by simp)⟩

end Verif.XBytes

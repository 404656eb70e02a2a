import Verif.XString.Unsafe
import Verif.XString.PropsB
/-!
# C102: Reverse leaves its argument alone

`Reverse` reads the memory of its argument through a byte slice and returns a slice as a string. No byte that existed before is ever
written, and nothing else refers to the memory of the result.
-/
namespace Verif.XString
open Verif.Go

theorem modify_last (m : Mem) (d : Bytes) (f : Bytes → Bytes) : (m ++ [d]).modify m.length f = m ++ [f d] := by
  induction m with
  | nil => simp
  | cons x m ih => simpa using ih

theorem reverseLoop_length (src : Bytes) : ∀ (f si di : Nat) (d : Bytes) (r : Reversed), reverseLoop src f si di d = some r → r.str.length = d.length
  | 0, si, di, d, r, h => by simp [reverseLoop] at h; simp [← h]
  | f + 1, si, di, d, r, h => by
    unfold reverseLoop at h
    split at h
    · simp only [] at h
      split at h
      · simp at h; simp [← h]
      · split at h
        · simp at h
        · rename_i d' hd
          rw [reverseLoop_length src f _ _ d' r h]
          simp only [encodeAt] at hd
          split at hd
          · simp at hd; rw [← hd]; simp; omega
          · simp at hd
    · simp at h; simp [← h]

theorem bytes_append (m : Mem) (d : Bytes) {arr off len : Nat} (h : arr < m.length) : Mem.bytes (m ++ [d]) arr off len = m.bytes arr off len := by
  simp [Mem.bytes, List.getElem?_append_left h]

/-- The loop on memory does what the loop on values does, and writes only to the last array. -/
theorem loopM (m : Mem) (s : StrH) (hs : s.arr < m.length) (hl : (m.str s).length = s.len) : ∀ (f si di : Nat) (d : Bytes), si ≤ f → si ≤ s.len → d.length = s.len →
    reverseLoopM (stringToBytes s) ⟨m.length, 0, s.len, s.len⟩ f si di (m ++ [d]) =
      (reverseLoop (m.str s) f si di d).map fun r => (m ++ [r.str], ⟨m.length, 0, s.len⟩, r.err)
  | 0, si, di, d, h1, h2, h3 => by
    have : si = 0 := by omega
    simp [reverseLoopM, reverseLoop, this, bytesToString]
  | f + 1, si, di, d, h1, h2, h3 => by
    unfold reverseLoopM reverseLoop
    by_cases h0 : si = 0
    · simp [h0, bytesToString]
    · have hpart : Mem.bytes (m ++ [d]) s.arr s.off si = (m.str s).take si := by
        rw [bytes_append m d hs, Mem.str, Mem.bytes, Mem.bytes, List.take_take, Nat.min_eq_left h2]
      have hw : (decodeLastRune ((m.str s).take si)).1 ≠ runeError → 0 < (decodeLastRune ((m.str s).take si)).2 := by
        intro hr
        obtain ⟨_, _, _, hn⟩ := decodeLastRune_sound hr
        rw [hn]; exact (encodeRune_length _).1
      simp only [h0, if_false, SliceH.upTo, stringToBytes, h2, if_true, hpart, show si > 0 by omega]
      generalize decodeLastRune ((m.str s).take si) = rn at hw ⊢
      obtain ⟨r, n⟩ := rn
      simp only [] at hw ⊢
      by_cases hr : r = runeError
      · simp [hr, bytesToString]
      · simp only [hr, if_false, SliceH.from, encodeAt]
        by_cases hd : di + (encodeRune r).length ≤ d.length
        · have e1 : di ≤ s.len := by omega
          have e2 : (encodeRune r).length ≤ s.len - di := by omega
          have hn := hw hr
          have e3 : (m ++ [d]).modify m.length (fun a => writeAt a (0 + di) (encodeRune r)) = m ++ [writeAt d di (encodeRune r)] := by
            rw [modify_last, Nat.zero_add]
          simp only [e1, if_true, encodeM, e2, hd, e3]
          have := loopM m s hs hl f (si - n) (di + n) (writeAt d di (encodeRune r)) (by omega) (by omega) (by simp [writeAt]; omega)
          simpa only [stringToBytes, writeAt] using this
        · simp only [hd, if_false, Option.map_none]
          by_cases e1 : di ≤ s.len
          · have e2 : ¬ (encodeRune r).length ≤ s.len - di := by omega
            simp [e1, encodeM, e2]
          · simp [e1]

/-- C102: `Reverse(s)`, with the contents and the error of the model on values (C57), in terms of memory: all arrays that exist before the call are
there after it with the same contents (the first part of the new memory is the old memory, byte by byte), so that no string or slice anybody holds
has changed; the result is the argument itself (if it is empty) or lies in an array that did not exist before. -/
theorem C102_reverse (m : Mem) (s : StrH) (hs : s.In m) : ∃ m' t err, reverseM m s = some (m', t, err) ∧ reverse (m.str s) = some ⟨m'.str t, err⟩ ∧
    m <+: m' ∧ t.In m' ∧ (s.len = 0 ∧ t = s ∨ t.arr = m.length) := by
  unfold reverseM
  by_cases h0 : s.len = 0
  · have he : m.str s = [] := by simp [Mem.str, Mem.bytes, h0]
    exact ⟨m, s, false, by simp [h0], by simp [he, reverse], List.prefix_refl _, fun h => absurd h0 h, .inl ⟨h0, rfl⟩⟩
  · obtain ⟨a, ha, hle⟩ := hs h0
    have hlt : s.arr < m.length := by
      by_contra hge
      rw [List.getElem?_eq_none (by omega)] at ha; simp at ha
    have hl : (m.str s).length = s.len := by simp [Mem.str, Mem.bytes, ha]; omega
    have hne : m.str s ≠ [] := by intro e; rw [e] at hl; simp at hl; omega
    obtain ⟨res, hres, _⟩ := C57_reverse_exact (m.str s)
    have hloop := loopM m s hlt hl s.len s.len 0 (List.replicate s.len 0) (Nat.le_refl _) (Nat.le_refl _) (by simp)
    have hrev : reverse (m.str s) = reverseLoop (m.str s) s.len s.len 0 (List.replicate s.len 0) := by simp [reverse, hne, hl]
    rw [← hrev, hres] at hloop
    have hreslen : res.str.length = s.len := by
      rw [hrev] at hres
      have := reverseLoop_length _ _ _ _ _ _ hres
      simpa using this
    refine ⟨m ++ [res.str], ⟨m.length, 0, s.len⟩, res.err, by simpa [h0, makeBytes] using hloop, ?_, ⟨_, rfl⟩, ?_, .inr rfl⟩
    · rw [hres]
      simp [Mem.str, Mem.bytes, ← hreslen]
    · intro _
      exact ⟨res.str, by simp, by simp [hreslen]⟩

/-- C102: every string anybody holds reads the same after the call. -/
theorem C102_immutable (m : Mem) (s : StrH) (hs : s.In m) {m' : Mem} {t : StrH} {err : Bool} (h : reverseM m s = some (m', t, err)) (u : StrH) (hu : u.In m) :
    m'.str u = m.str u := by
  obtain ⟨m'', t', err', h1, _, ⟨rest, h2⟩, _⟩ := C102_reverse m s hs
  rw [h] at h1
  cases h1
  by_cases h0 : u.len = 0
  · simp [Mem.str, Mem.bytes, h0]
  · obtain ⟨a, ha, _⟩ := hu h0
    have hlt : u.arr < m.length := by
      by_contra hge
      rw [List.getElem?_eq_none (by omega)] at ha; simp at ha
    rw [← h2]
    simp [Mem.str, Mem.bytes, List.getElem?_append_left hlt]

/-- "xab" at offset 1 of an array: the result is in a new array, the old one is as before. -/
example : reverseM [[0, 97, 0xC3, 0xA4, 98]] ⟨0, 1, 4⟩ = some ([[0, 97, 0xC3, 0xA4, 98], [98, 0xC3, 0xA4, 97]], ⟨1, 0, 4⟩, false) := by decide

example : (⟨0, 1, 4⟩ : StrH).In [[0, 97, 0xC3, 0xA4, 98]] := fun _ => ⟨_, rfl, by decide⟩

end Verif.XString

import Verif.XBinary.Props
/-!
# Which error the read functions return (C93), and readers that return the error together with the last data (C37)
-/
namespace Verif.XBinary
open Verif.Go Verif.Go.IO

/-! ## Errors at the end of the input -/

theorem memReader_nil (p : Bytes) (hp : p ≠ []) : memReader.read [] p = ⟨0, p, some .eof, []⟩ := by
  simp [memReader, hp]

theorem memReader_cons (s p : Bytes) (hs : s ≠ []) :
    memReader.read s p = ⟨min p.length s.length, s.take (min p.length s.length) ++ p.drop (min p.length s.length), none, s.drop (min p.length s.length)⟩ := by
  simp [memReader, hs]

/-- **C93** (part). At the end of the data every read function returns `io.EOF`. -/
theorem C93_end_partial (hdr : Bytes) (hh : hdr.length = 2) (stale : Nat → Bytes) (hst : ∀ n, (stale n).length = n) (fuel : Nat) :
    readUint16 memReader [] (stale 2) = some (.error .eof, []) ∧ readUint32 memReader [] (stale 4) = some (.error .eof, []) ∧
    readBool memReader [] (stale 1) = some (.error .eof, []) ∧ readBytes memReader [] hdr stale fuel = .error .eof [] := by
  have h : ∀ n, 0 < n → stale n ≠ [] := by
    intro n hn e
    have := hst n
    rw [e] at this
    simp at this
    omega
  have h' : hdr ≠ [] := by rintro rfl; simp at hh
  refine ⟨?_, ?_, ?_, ?_⟩ <;> simp only [readUint16, readUint32, readBool, readBytes, memReader_nil _ h', memReader_nil _ (h 1 (by decide)), memReader_nil _ (h 2 (by decide)),
    memReader_nil _ (h 4 (by decide))]

/-- **C93** (part). If the data ends inside a number, the error is `ErrInvalidLength`. -/
theorem C93_number_partial (stale : Nat → Bytes) (hst : ∀ n, (stale n).length = n) (s : Bytes) (hs : s ≠ []) :
    (s.length < 2 → readUint16 memReader s (stale 2) = some (.error .invalidLength, [])) ∧
    (s.length < 4 → readUint32 memReader s (stale 4) = some (.error .invalidLength, [])) := by
  refine ⟨fun h => ?_, fun h => ?_⟩
  · simp only [readUint16, memReader_cons _ _ hs, hst, Nat.min_eq_right (Nat.le_of_lt h), h, if_true, List.drop_length]
  · simp only [readUint32, memReader_cons _ _ hs, hst, Nat.min_eq_right (Nat.le_of_lt h), h, if_true, List.drop_length]

/-- **C93** (part). What `ReadBytes` returns if the data is a proper prefix of what `WriteBytes` has written for `b`: `io.EOF` if nothing is
there, `ErrInvalidLength` inside the length, `io.EOF` again directly after the length, and `io.ErrUnexpectedEOF` inside the contents. -/
theorem C93_bytes_partial (hdr : Bytes) (hh : hdr.length = 2) (stale : Nat → Bytes) (hst : ∀ n, (stale n).length = n) (b p : Bytes) (hb : b.length < 2 ^ 16) (hp : p <+: frame b)
    (hne : p ≠ frame b) (fuel : Nat) (hf : 2 ≤ fuel) :
    readBytes memReader p hdr stale fuel = .error (if p.length = 1 then .invalidLength else if p.length ≤ 2 then .eof else .unexpectedEof) [] := by
  have hlt : p.length < (frame b).length := by
    rcases Nat.lt_or_ge p.length (frame b).length with h | h
    · exact h
    · exact absurd (hp.eq_of_length_le h) hne
  have hfl : (frame b).length = 2 + b.length := by simp [frame, encode16]; omega
  match p, hp, hlt with
  | [], _, _ => simpa using (C93_end_partial hdr hh stale hst fuel).2.2.2
  | [x], _, _ =>
    have := (C93_number_partial (fun n => if n = 2 then hdr else List.replicate n 0) (by intro n; split <;> simp_all) [x] (by simp)).1 (by simp)
    rw [if_pos rfl] at this
    simp [readBytes, this]
  | x :: y :: q, hp, hlt =>
    obtain ⟨f, rfl⟩ : ∃ f, fuel = f + 1 + 1 := ⟨fuel - 2, by omega⟩
    obtain ⟨t, ht⟩ := hp
    have hfr : frame b = encode16 b.length ++ b := by rw [frame, Nat.mod_eq_of_lt hb]
    rw [hfr] at ht
    have hxy : [x, y] = encode16 b.length ∧ q ++ t = b := List.append_inj (s₁ := [x, y]) (by simpa using ht) rfl
    obtain ⟨hxy, hqt⟩ := hxy
    have hr : readUint16 memReader (x :: y :: q) hdr = some (.ok b.length, q) := by
      obtain ⟨s', h1, h2⟩ := (C37_roundtrip memReader_lawful memReader_eager (x :: y :: q) q).1 b.length hdr hb hh
        (by rw [← hxy]; rfl)
      rw [h1, show s' = q from h2]
    have hq : q.length < b.length := by rw [hfl] at hlt; simp at hlt; omega
    have hb0 : b.length ≠ 0 := by omega
    have hs0 : ∀ n, n ≠ 0 → ∀ l : Bytes, l.length = n → l ≠ [] := by
      rintro n hn l hl rfl; simp at hl; omega
    simp only [readBytes, hr, hb0, if_false]
    by_cases hq0 : q = []
    · subst hq0
      have hpos : 0 < b.length := by omega
      have hbn : b ≠ [] := List.length_pos_iff.1 hpos
      simp [readFullLoop, hst, hpos, hbn, memReader_nil _ (hs0 _ hb0 _ (hst _))]
    · have hqp : 0 < q.length := List.length_pos_iff.2 hq0
      have hpos : 0 < b.length := by omega
      have hmin : min b.length q.length = q.length := by omega
      have hl1 : (q ++ (stale b.length).drop q.length).length = b.length := by simp [hst]; omega
      have hd : ((q ++ (stale b.length).drop q.length).drop q.length) = (stale b.length).drop q.length := by simp
      have hdn : (stale b.length).drop q.length ≠ [] := by
        intro e
        have := congrArg List.length e
        simp [hst] at this; omega
      simp only [readFullLoop, hst, hpos, if_true, List.drop_zero, memReader_cons _ _ hq0, hmin, List.take_length, List.take_zero, List.nil_append, Nat.zero_add, hl1,
        hq, hd, memReader_nil _ hdn, List.drop_length, Nat.add_zero, Nat.not_le.2 hq, gt_iff_lt, hqp, and_self, if_false]
      simp [hq0]

example : readBytes memReader [0, 3, 7] [9, 9] (fun n => List.replicate n 0) 9 = .error .unexpectedEof [] := by
  have := C93_bytes_partial [9, 9] rfl (fun n => List.replicate n 0) (by simp) [7, 8, 9] [0, 3, 7] (by decide) ⟨[8, 9], rfl⟩ (by decide) 9 (by decide)
  simpa using this

/-- **C93 is false**: a stream that ends directly after the length of a byte string is reported as `io.EOF`, the error of a stream that has
ended between two values. -/
theorem C93_eof_refuted : ∃ (b p : Bytes), p <+: frame b ∧ p ≠ [] ∧ p ≠ frame b ∧
    readBytes memReader p [9, 9] (fun n => List.replicate n 0) 2 = .error .eof [] := by
  refine ⟨[7], [0, 1], ⟨[7], rfl⟩, by simp, by decide, ?_⟩
  have := C93_bytes_partial [9, 9] rfl (fun n => List.replicate n 0) (by simp) [7] [0, 1] (by decide) ⟨[7], rfl⟩ (by decide) 2 (by decide)
  simpa using this

/-! ## Readers that return the error together with the last data -/

/-- A reader that returns `io.EOF` together with the last bytes (allowed by the contract; `testing/iotest.DataErrReader`). -/
def dataErr : Reader Bytes where
  rest s := s
  read s p :=
    let n := min p.length s.length
    ⟨n, s.take n ++ p.drop n, if s.length ≤ p.length then some .eof else none, s.drop n⟩

theorem dataErr_lawful : dataErr.Lawful := by
  constructor
  · intro s p; simp [dataErr]; omega
  · intro s p; simp [dataErr]; omega
  · intro s p
    simp only [dataErr]
    rw [List.take_append_of_le_length (by simp), List.take_take, Nat.min_self]
    exact List.take_append_drop _ _

/-- **C37 is false** for readers that return `io.EOF` together with the last bytes: a complete last value is lost, whatever it is. -/
theorem C37_dataErr_refuted (stale : Nat → Bytes) (hst : ∀ n, (stale n).length = n) (i : Nat) (b : Bool) :
    dataErr.Lawful ∧ readUint16 dataErr (encode16 i) (stale 2) = some (.error .eof, []) ∧ readUint32 dataErr (encode32 i) (stale 4) = some (.error .eof, []) ∧
    readBool dataErr [if b then 1 else 0] (stale 1) = some (.error .eof, []) := by
  refine ⟨dataErr_lawful, ?_, ?_, ?_⟩ <;> simp [readUint16, readUint32, readBool, dataErr, hst, encode16, encode32]

example : readUint16 dataErr (encode16 258) [0, 0] = some (.error .eof, []) := rfl

/-! ## Errors of the writer -/

/-- What a write function has to do: without an error all bytes are written; an error is one of the writer, and then a prefix is written. -/
def Reports (w w' : Writer) (enc : Bytes) (err : Option Err) : Prop :=
  (err = none → w'.out = w.out ++ enc) ∧
  ∀ e, err = some e → (∃ k, w.calls ≤ k ∧ k < w'.calls ∧ w.fail k = some e) ∧ ∃ p, p <+: enc ∧ w'.out = w.out ++ p

theorem reports_write (w : Writer) (d : Bytes) : Reports w (w.write d).1 d (w.write d).2 := by
  unfold Writer.write
  cases h : w.fail w.calls with
  | none => exact ⟨fun _ => rfl, by simp⟩
  | some e =>
    refine ⟨by simp, fun e' he => ?_⟩
    cases he
    exact ⟨⟨w.calls, Nat.le_refl _, Nat.lt_succ_self _, h⟩, _, List.take_prefix _ _, rfl⟩

/-- **C94.** No error of the writer is lost: if a write function returns nil, all its bytes are written; otherwise the error is one that the
writer has returned during the call, and what is written is a prefix. -/
theorem C94_write_errors (w : Writer) (i : Nat) (b : Bool) (d : Bytes) :
    Reports w (writeUint16 w i).1 (encode16 i) (writeUint16 w i).2 ∧ Reports w (writeUint32 w i).1 (encode32 i) (writeUint32 w i).2 ∧
    Reports w (writeBool w b).1 [if b then 1 else 0] (writeBool w b).2 ∧ Reports w (writeBytes w d).1 (frame d) (writeBytes w d).2 := by
  refine ⟨reports_write _ _, reports_write _ _, reports_write _ _, ?_⟩
  unfold writeBytes writeUint16 Writer.write
  cases h : w.fail w.calls with
  | none =>
    simp only
    cases h2 : w.fail (w.calls + 1) with
    | none => exact ⟨fun _ => by simp [frame], by simp⟩
    | some e =>
      refine ⟨by simp, fun e' he => ?_⟩
      cases he
      refine ⟨⟨w.calls + 1, by omega, by simp, h2⟩, encode16 (d.length % 2 ^ 16) ++ d.take (w.part (w.calls + 1)), ?_, by simp⟩
      exact (List.prefix_append_right_inj _).2 (List.take_prefix _ _)
  | some e =>
    refine ⟨by simp, fun e' he => ?_⟩
    cases he
    exact ⟨⟨w.calls, Nat.le_refl _, Nat.lt_succ_self _, h⟩, (encode16 (d.length % 2 ^ 16)).take (w.part w.calls),
      (List.take_prefix _ _).trans (List.prefix_append _ _), rfl⟩

/-- A writer whose second call accepts one byte and fails. -/
example : (writeBytes ⟨[9], 0, fun k => if k = 1 then some (.other 5) else none, fun _ => 1⟩ [7, 8]).1.out = [9, 0, 2, 7] ∧
    (writeBytes ⟨[9], 0, fun k => if k = 1 then some (.other 5) else none, fun _ => 1⟩ [7, 8]).2 = some (.other 5) := ⟨rfl, rfl⟩

end Verif.XBinary

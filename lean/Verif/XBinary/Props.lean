import Verif.XBinary.Model
/-! # Property theorems for xbinary (C37–C40) -/
namespace Verif.XBinary
open Verif.Go Verif.Go.IO

/-! ## Encoding arithmetic -/

theorem byte_toNat (i : Nat) : (byte i).toNat = i % 256 := by simp [byte]

theorem be16_encode16 (i : Nat) (h : i < 2 ^ 16) (t : Bytes) : be16 (encode16 i ++ t) = some i := by
  simp only [encode16, List.cons_append, List.nil_append, be16, byte_toNat, Option.some.injEq]
  rw [Nat.shiftRight_eq_div_pow, Nat.shiftLeft_eq, Nat.or_comm, Nat.mul_comm, ← Nat.two_pow_add_eq_or_of_lt (by omega)]
  omega

theorem be32_encode32 (i : Nat) (h : i < 2 ^ 32) (t : Bytes) : be32 (encode32 i ++ t) = some i := by
  simp only [encode32, List.cons_append, List.nil_append, be32, byte_toNat, Option.some.injEq]
  simp only [Nat.shiftRight_eq_div_pow, Nat.shiftLeft_eq]
  have e1 : i % 256 ||| i / 2 ^ 8 % 256 * 2 ^ 8 = i % 2 ^ 16 := by
    rw [Nat.or_comm, Nat.mul_comm, ← Nat.two_pow_add_eq_or_of_lt (by omega)]; omega
  have e2 : i % 2 ^ 16 ||| i / 2 ^ 16 % 256 * 2 ^ 16 = i % 2 ^ 24 := by
    rw [Nat.or_comm, Nat.mul_comm, ← Nat.two_pow_add_eq_or_of_lt (by omega)]; omega
  have e3 : i % 2 ^ 24 ||| i / 2 ^ 24 % 256 * 2 ^ 24 = i := by
    rw [Nat.or_comm, Nat.mul_comm, ← Nat.two_pow_add_eq_or_of_lt (by omega)]; omega
  rw [e1, e2, e3]

theorem encode16_length (i : Nat) : (encode16 i).length = 2 := rfl
theorem encode32_length (i : Nat) : (encode32 i).length = 4 := rfl

/-- Big-endian: the numeric value is the bytes read as base-256 digits, most significant first. -/
def baseVal (b : Bytes) : Nat := b.foldl (fun acc x => acc * 256 + x.toNat) 0

/-- C37: the encodings are big-endian, of 2, 4 and 1 bytes. -/
theorem C37_big_endian (i : Nat) :
    (i < 2 ^ 16 → (encode16 i).length = 2 ∧ baseVal (encode16 i) = i) ∧
    (i < 2 ^ 32 → (encode32 i).length = 4 ∧ baseVal (encode32 i) = i) := by
  constructor <;> intro h
  · refine ⟨rfl, ?_⟩
    simp [baseVal, encode16, byte_toNat, Nat.shiftRight_eq_div_pow]; omega
  · refine ⟨rfl, ?_⟩
    simp [baseVal, encode32, byte_toNat, Nat.shiftRight_eq_div_pow]; omega

example : encode16 258 = [1, 2] ∧ encode32 16909060 = [1, 2, 3, 4] := by decide

/-! ## One successful read of `k` bytes -/

variable {σ : Type}

/-- With an eager lawful reader holding at least `k` bytes, one `Read` of a `k`-byte buffer returns exactly them. -/
theorem eager_read {R : Reader σ} (hl : R.Lawful) (he : R.Eager) (s : σ) (d t p : Bytes) (hp : p.length = d.length)
    (hd : d ≠ []) (hs : R.rest s = d ++ t) :
    (R.read s p).err = none ∧ (R.read s p).n = d.length ∧ (R.read s p).buf = d ∧ R.rest (R.read s p).next = t := by
  have hpne : p ≠ [] := by
    intro h; subst h; exact hd (List.eq_nil_of_length_eq_zero (by simpa using hp.symm))
  obtain ⟨h1, h2⟩ := he s p hpne
  have hn : (R.read s p).n = d.length := by rw [h1, hs]; simp; omega
  have herr : (R.read s p).err = none := h2.mpr (by rw [hs]; simp [hd])
  have hdata := hl.data s p
  have hlen := hl.len s p
  rw [hn, hs, List.take_of_length_le (by omega)] at hdata
  obtain ⟨e1, e2⟩ := List.append_inj hdata (by omega)
  exact ⟨herr, hn, e1, e2⟩

/-- C37: for every value, every following data, every eager reader and every old buffer content, reading back gives
the value and leaves exactly the following data. -/
theorem C37_roundtrip {R : Reader σ} (hl : R.Lawful) (he : R.Eager) (s : σ) (t : Bytes) :
    (∀ i stale, i < 2 ^ 16 → stale.length = 2 → R.rest s = encode16 i ++ t →
      ∃ s', readUint16 R s stale = some (.ok i, s') ∧ R.rest s' = t) ∧
    (∀ i stale, i < 2 ^ 32 → stale.length = 4 → R.rest s = encode32 i ++ t →
      ∃ s', readUint32 R s stale = some (.ok i, s') ∧ R.rest s' = t) ∧
    (∀ (b : Bool) stale, stale.length = 1 → R.rest s = [if b then 1 else 0] ++ t →
      ∃ s', readBool R s stale = some (.ok b, s') ∧ R.rest s' = t) := by
  refine ⟨?_, ?_, ?_⟩
  · intro i stale hi hst hs
    obtain ⟨h1, h2, h3, h4⟩ := eager_read hl he s (encode16 i) t stale hst (by simp [encode16]) hs
    refine ⟨_, ?_, h4⟩
    unfold readUint16
    simp only [h1, h2, h3, encode16_length]
    have := be16_encode16 i hi []
    rw [List.append_nil] at this
    simp [this]
  · intro i stale hi hst hs
    obtain ⟨h1, h2, h3, h4⟩ := eager_read hl he s (encode32 i) t stale hst (by simp [encode32]) hs
    refine ⟨_, ?_, h4⟩
    unfold readUint32
    simp only [h1, h2, h3, encode32_length]
    have := be32_encode32 i hi []
    rw [List.append_nil] at this
    simp [this]
  · intro b stale hst hs
    obtain ⟨h1, h2, h3, h4⟩ := eager_read hl he s [if b then 1 else 0] t stale hst (by simp) hs
    refine ⟨_, ?_, h4⟩
    unfold readBool
    simp only [h1, h3]
    cases b <;> simp

example := (C37_roundtrip memReader_lawful memReader_eager (encode16 258 ++ [7]) [7]).1 258 [0, 0] (by omega) rfl rfl

/-- C37: what the write functions hand to a writer that accepts it (and nothing else is written). -/
theorem C37_write (out : Bytes) (i : Nat) (b : Bool) :
    (writeUint16 (memWriter out) i).1.out = out ++ encode16 i ∧ (writeUint16 (memWriter out) i).2 = none ∧
    (writeUint32 (memWriter out) i).1.out = out ++ encode32 i ∧ (writeUint32 (memWriter out) i).2 = none ∧
    (writeBool (memWriter out) b).1.out = out ++ [if b then 1 else 0] ∧ (writeBool (memWriter out) b).2 = none := by
  simp [writeUint16, writeUint32, writeBool, Writer.write, memWriter]

example : (writeUint16 (memWriter [9]) 258).1.out = [9, 1, 2] := by decide

/-- A reader that hands out one byte per call (allowed by the contract). -/
def oneByte : Reader Bytes where
  rest s := s
  read s p :=
    match s, p with
    | [], _ => ⟨0, p, some .eof, []⟩
    | _ :: _, [] => ⟨0, p, none, s⟩
    | b :: s', _ :: p' => ⟨1, b :: p', none, s'⟩

theorem oneByte_lawful : oneByte.Lawful := by
  constructor <;> intro s p <;> rcases s with _ | ⟨a, s⟩ <;> rcases p with _ | ⟨b, p⟩ <;> simp [oneByte]

/-- C37 is false for readers that deliver data in smaller pieces: the value is in the stream, but ReadUint16 reports
an error and has swallowed a byte. -/
theorem C37_chunked_refuted :
    oneByte.rest (encode16 258 ++ [7]) = encode16 258 ++ [7] ∧
    readUint16 oneByte (encode16 258 ++ [7]) [0, 0] = some (.error .invalidLength, [2, 7]) := by
  constructor
  · rfl
  · simp [readUint16, oneByte, encode16, byte]

/-! ## ReadBytes -/

/-- `io.ReadFull` on any lawful reader: on success the buffer is exactly the next bytes of the stream; on failure the
stream did not … or an error came first. -/
theorem readFull_spec {R : Reader σ} (hl : R.Lawful) : ∀ (f : Nat) (s : σ) (buf : Bytes) (done : Nat) (r : ReadRes σ),
    done ≤ buf.length → readFullLoop R f s buf done = some r →
    ∃ d, r.buf.length = buf.length ∧ r.buf.take r.n = buf.take done ++ d ∧ d ++ R.rest r.next = R.rest s ∧
      r.n = done + d.length ∧ r.n ≤ buf.length ∧ (r.err = none ↔ r.n = buf.length) := by
  intro f
  induction f with
  | zero => intro s buf done r _ h; simp [readFullLoop] at h
  | succ f ih =>
    intro s buf done r hd h
    unfold readFullLoop at h
    by_cases hlt : done < buf.length
    · rw [if_pos hlt] at h
      simp only at h
      have h1 := hl.len s (buf.drop done)
      have h2 := hl.le s (buf.drop done)
      have h3 := hl.data s (buf.drop done)
      generalize hq : R.read s (buf.drop done) = q at h h1 h2 h3
      simp only [List.length_drop] at h1 h2
      have hb' : (buf.take done ++ q.buf).length = buf.length := by simp; omega
      have htk : (buf.take done ++ q.buf).take (done + q.n) = buf.take done ++ q.buf.take q.n := by
        rw [List.take_append]
        simp only [List.length_take, Nat.min_eq_left (by omega : done ≤ buf.length)]
        rw [List.take_of_length_le (by simp; omega), Nat.add_sub_cancel_left]
      have hqn : (q.buf.take q.n).length = q.n := by simp; omega
      split at h
      · -- continue
        obtain ⟨d, e1, e2, e3, e4, e5, e6⟩ := ih q.next _ _ r (by rw [hb']; omega) h
        refine ⟨q.buf.take q.n ++ d, by rw [e1, hb'], ?_, ?_, ?_, by omega, by rw [e6, hb']⟩
        · rw [e2, htk, List.append_assoc]
        · rw [List.append_assoc, e3, h3]
        · simp only [List.length_append, hqn]; omega
      · rename_i e _
        split at h
        · rename_i hge
          simp only [Option.some.injEq] at h
          subst h
          exact ⟨q.buf.take q.n, hb', htk, h3, by simp only [hqn], by simp only; omega, by simp; omega⟩
        · rename_i hge
          split at h
          · simp only [Option.some.injEq] at h
            subst h
            exact ⟨q.buf.take q.n, hb', htk, h3, by simp only [hqn], by simp only; omega, by simp; omega⟩
          · simp only [Option.some.injEq] at h
            subst h
            exact ⟨q.buf.take q.n, hb', htk, h3, by simp only [hqn], by simp only; omega, by simp; omega⟩
    · rw [if_neg hlt] at h
      simp only [Option.some.injEq] at h
      subst h
      exact ⟨[], rfl, by simp, by simp, by simp, hd, by simp; omega⟩

/-- `ReadUint16` on any lawful reader: a value is returned only for two bytes of the stream. -/
theorem readUint16_sound {R : Reader σ} (hl : R.Lawful) (s : σ) (stale : Bytes) (hst : stale.length = 2) :
    (∃ e s', readUint16 R s stale = some (.error e, s')) ∨
    (∃ a b s', readUint16 R s stale = some (.ok (b.toNat ||| a.toNat <<< 8), s') ∧ R.rest s = a :: b :: R.rest s') := by
  unfold readUint16
  have h1 := hl.len s stale
  have h2 := hl.le s stale
  have h3 := hl.data s stale
  generalize R.read s stale = q at h1 h2 h3
  simp only
  cases hq : q.err with
  | some e => left; exact ⟨e, q.next, rfl⟩
  | none =>
    simp only
    by_cases hn : q.n < 2
    · left; rw [if_pos hn]; exact ⟨_, _, rfl⟩
    · right
      rw [if_neg hn]
      rw [List.take_of_length_le (by omega)] at h3
      rcases hb : q.buf with _ | ⟨a, _ | ⟨b, _ | ⟨c, t⟩⟩⟩
      · rw [hb] at h1; simp at h1; omega
      · rw [hb] at h1; simp at h1; omega
      · refine ⟨a, b, q.next, rfl, ?_⟩
        rw [← h3, hb]; rfl
      · rw [hb] at h1; simp at h1; omega

theorem byte_or_lt (a b : UInt8) : b.toNat ||| a.toNat <<< 8 < 2 ^ 16 :=
  Nat.or_lt_two_pow (by have := b.toNat_lt; omega) (by rw [Nat.shiftLeft_eq]; have := a.toNat_lt; omega)

theorem encode16_of_bytes (a b : UInt8) : encode16 (b.toNat ||| a.toNat <<< 8) = [a, b] := by
  have e : b.toNat ||| a.toNat <<< 8 = 256 * a.toNat + b.toNat := by
    rw [Nat.shiftLeft_eq, Nat.or_comm, Nat.mul_comm, ← Nat.two_pow_add_eq_or_of_lt b.toNat_lt]
  have ha := a.toNat_lt
  have hb := b.toNat_lt
  rw [e]
  unfold encode16 byte
  congr 1
  · apply UInt8.toNat.inj; simp [Nat.shiftRight_eq_div_pow]; omega
  · congr 1; apply UInt8.toNat.inj; simp

/-- The bytes `WriteBytes` produces. -/
def frame (s : Bytes) : Bytes := encode16 (s.length % 2 ^ 16) ++ s

/-- C38: `WriteBytes` writes exactly the frame. -/
theorem C38_write (out s : Bytes) :
    (writeBytes (memWriter out) s).1.out = out ++ frame s ∧ (writeBytes (memWriter out) s).2 = none := by
  simp [writeBytes, writeUint16, Writer.write, memWriter, frame]

example : (writeBytes (memWriter [9]) [5, 6]).1.out = [9, 0, 2, 5, 6] := by decide

/-- C38 (soundness, every lawful reader, however it chunks): whatever `ReadBytes` returns is exactly what a frame at the
head of the stream holds, and exactly the frame has been consumed. -/
theorem C38_sound {R : Reader σ} (hl : R.Lawful) (s : σ) (hdr : Bytes) (hh : hdr.length = 2) (stale : Nat → Bytes) (hst : ∀ n, (stale n).length = n)
    (fuel : Nat) (b : Bytes) (s' : σ) (h : readBytes R s hdr stale fuel = .ok b s') :
    b.length < 2 ^ 16 ∧ R.rest s = frame b ++ R.rest s' := by
  unfold readBytes at h
  rcases readUint16_sound hl s hdr hh with ⟨e, s1, h1⟩ | ⟨x, y, s1, h1, h2⟩
  · rw [h1] at h; simp at h
  · rw [h1] at h
    simp only at h
    have hlt := byte_or_lt x y
    have henc := encode16_of_bytes x y
    generalize y.toNat ||| x.toNat <<< 8 = length at h hlt henc
    split at h
    · rename_i h0
      simp only [RB.ok.injEq] at h
      obtain ⟨rfl, rfl⟩ := h
      refine ⟨by simp, ?_⟩
      subst h0
      rw [h2, frame]
      simp only [List.length_nil, Nat.zero_mod, henc]
      simp
    · cases hr : readFullLoop R fuel s1 (stale length) 0 with
      | none => rw [hr] at h; simp at h
      | some r =>
        rw [hr] at h
        simp only at h
        obtain ⟨d, e1, e2, e3, e4, e5, e6⟩ := readFull_spec hl fuel s1 _ 0 r (by omega) hr
        cases hre : r.err with
        | some e => rw [hre] at h; simp at h
        | none =>
          rw [hre] at h
          simp only [RB.ok.injEq] at h
          obtain ⟨rfl, rfl⟩ := h
          have hn := e6.mp hre
          rw [hn, ← e1, List.take_length, List.take_zero, List.nil_append] at e2
          rw [hst] at e1
          refine ⟨by omega, ?_⟩
          rw [h2, frame, e1, Nat.mod_eq_of_lt hlt, henc, ← e3, e2]
          simp

example : readBytes memReader [0, 2, 5, 6, 7] [8, 8] (fun n => List.replicate n 9) 2 = .ok [5, 6] [7] := rfl

/-- Reading an eager reader fills the whole buffer at once. -/
theorem readFull_eager {R : Reader σ} (hl : R.Lawful) (he : R.Eager) (s : σ) (d t p : Bytes) (hp : p.length = d.length)
    (hd : d ≠ []) (hs : R.rest s = d ++ t) (f : Nat) :
    ∃ s', readFullLoop R (f + 2) s p 0 = some ⟨d.length, d, none, s'⟩ ∧ R.rest s' = t := by
  have hlt : 0 < p.length := by
    rw [hp]; exact List.length_pos_iff.mpr hd
  obtain ⟨h1, h2, h3, h4⟩ := eager_read hl he s d t p hp hd hs
  refine ⟨(R.read s p).next, ?_, h4⟩
  unfold readFullLoop
  rw [if_pos hlt]
  simp only [List.drop_zero, List.take_zero, List.nil_append, h1, h2, h3]
  unfold readFullLoop
  rw [if_neg (by omega)]
  simp

/-- C38, what holds: every byte slice shorter than 65536 survives the round trip over an eager reader and the rest of
the stream is untouched. Missing: longer slices, for which it is false (`C38_long_refuted`). -/
theorem C38_roundtrip_partial {R : Reader σ} (hl : R.Lawful) (he : R.Eager) (s : σ) (b t : Bytes)
    (hb : b.length < 2 ^ 16) (hs : R.rest s = frame b ++ t) (hdr : Bytes) (hh : hdr.length = 2) (stale : Nat → Bytes) (hst : ∀ n, (stale n).length = n)
    (fuel : Nat) (hf : 2 ≤ fuel) : ∃ s', readBytes R s hdr stale fuel = .ok b s' ∧ R.rest s' = t := by
  unfold frame at hs
  rw [Nat.mod_eq_of_lt hb, List.append_assoc] at hs
  obtain ⟨s1, h1, h2⟩ := (C37_roundtrip hl he s (b ++ t)).1 b.length hdr hb hh hs
  unfold readBytes
  rw [h1]
  simp only
  split
  · rename_i h0
    have : b = [] := List.eq_nil_of_length_eq_zero h0
    subst this
    exact ⟨s1, rfl, by simpa using h2⟩
  · rename_i h0
    obtain ⟨s2, h3, h4⟩ := readFull_eager hl he s1 b t (stale b.length) (hst _) (by rintro rfl; simp at h0) h2 (fuel - 2)
    rw [show fuel - 2 + 2 = fuel by omega] at h3
    rw [h3]
    exact ⟨s2, rfl, h4⟩

example := C38_roundtrip_partial memReader_lawful memReader_eager (frame [5, 6] ++ [7]) [5, 6] [7] (by decide) rfl [8, 8] rfl (fun n => List.replicate n 9) (by simp) 2 (by omega)

/-- C38, truncation: a slice of 65536 bytes or more is written with a wrong length; `ReadBytes` returns only its first
`len mod 65536` bytes and leaves the rest in the stream, for every such slice. -/
theorem C38_long_refuted {R : Reader σ} (hl : R.Lawful) (he : R.Eager) (s : σ) (b t : Bytes)
    (hb : 2 ^ 16 ≤ b.length) (hs : R.rest s = frame b ++ t) (hdr : Bytes) (hh : hdr.length = 2) (stale : Nat → Bytes) (hst : ∀ n, (stale n).length = n)
    (fuel : Nat) (hf : 2 ≤ fuel) : ∃ b' s', readBytes R s hdr stale fuel = .ok b' s' ∧ b' ≠ b ∧
      b' = b.take (b.length % 2 ^ 16) ∧ R.rest s' = b.drop (b.length % 2 ^ 16) ++ t := by
  have hlt : b.length % 2 ^ 16 < 2 ^ 16 := Nat.mod_lt _ (by omega)
  have hl' : (b.take (b.length % 2 ^ 16)).length = b.length % 2 ^ 16 := by simp; omega
  have hs' : R.rest s = frame (b.take (b.length % 2 ^ 16)) ++ (b.drop (b.length % 2 ^ 16) ++ t) := by
    rw [hs]; unfold frame
    rw [hl', Nat.mod_eq_of_lt hlt]
    simp only [List.append_assoc]
    rw [← List.append_assoc (List.take _ b), List.take_append_drop]
  obtain ⟨s', h1, h2⟩ := C38_roundtrip_partial hl he s _ _ (by omega) hs' hdr hh stale hst fuel hf
  refine ⟨_, s', h1, ?_, rfl, h2⟩
  intro h
  have := congrArg List.length h
  omega

/-- The hypotheses of `C38_long_refuted` are met by the ordinary in-memory reader. -/
example : memReader.Lawful ∧ memReader.Eager ∧ 2 ^ 16 ≤ (List.replicate (2 ^ 16) (0 : UInt8)).length ∧
    memReader.rest (frame (List.replicate (2 ^ 16) 0)) = frame (List.replicate (2 ^ 16) 0) ++ [] :=
  ⟨memReader_lawful, memReader_eager, by rw [List.length_replicate]; exact Nat.le_refl _, (List.append_nil _).symm⟩

/-! ## C39: sequences of typed values -/

/-- A typed value. -/
inductive Val where
  | u16 (i : Nat)
  | u32 (i : Nat)
  | bool (b : Bool)
  | bytes (b : Bytes)
  deriving DecidableEq

/-- The values of each type. -/
def Val.Ok : Val → Prop
  | .u16 i => i < 2 ^ 16
  | .u32 i => i < 2 ^ 32
  | .bool _ => True
  | .bytes b => b.length < 2 ^ 16

/-- Writing one value with the matching function. -/
def Val.write (w : Writer) : Val → Writer × Option Err
  | .u16 i => writeUint16 w i
  | .u32 i => writeUint32 w i
  | .bool b => writeBool w b
  | .bytes b => writeBytes w b

/-- Writing values one after the other, stopping at the first error. -/
def writeAll (w : Writer) : List Val → Writer × Option Err
  | [] => (w, none)
  | v :: vs =>
    match v.write w with
    | (w', none) => writeAll w' vs
    | (w', some e) => (w', some e)

/-- The type of a value, which the reader has to know. -/
inductive Ty where
  | u16 | u32 | bool | bytes
  deriving DecidableEq

/-- The type of a value. -/
def Val.ty : Val → Ty
  | .u16 _ => .u16
  | .u32 _ => .u32
  | .bool _ => .bool
  | .bytes _ => .bytes

/-- Reading one value of a type from an in-memory reader; `hdr` and `stale`: the old contents of the buffers. -/
def Ty.read (s : Bytes) (hdr : Bytes) (stale : Nat → Bytes) : Ty → Option (Val × Bytes)
  | .u16 => match readUint16 memReader s (stale 2) with | some (.ok v, s') => some (.u16 v, s') | _ => none
  | .u32 => match readUint32 memReader s (stale 4) with | some (.ok v, s') => some (.u32 v, s') | _ => none
  | .bool => match readBool memReader s (stale 1) with | some (.ok v, s') => some (.bool v, s') | _ => none
  | .bytes => match readBytes memReader s hdr stale 2 with | .ok v s' => some (.bytes v, s') | _ => none

/-- Reading one value after the other; `hdr k` and `stale k`: the old contents of the buffers of the `k`-th call from the end. -/
def readAll (s : Bytes) (hdr : Nat → Bytes) (stale : Nat → Nat → Bytes) : List Ty → Option (List Val × Bytes)
  | [] => some ([], s)
  | t :: ts =>
    match t.read s (hdr ts.length) (stale ts.length) with
    | none => none
    | some (v, s') => (readAll s' hdr stale ts).map (fun (vs, s'') => (v :: vs, s''))

/-- C39: every sequence of typed values written to a buffer is read back as the same sequence by the matching reads,
leaving what follows. -/
theorem C39_sequences (vs : List Val) (hv : ∀ v ∈ vs, v.Ok) (hdr : Nat → Bytes) (hh : ∀ k, (hdr k).length = 2)
    (stale : Nat → Nat → Bytes) (hst : ∀ k n, (stale k n).length = n) (t : Bytes) :
    (writeAll (memWriter []) vs).2 = none ∧
    readAll ((writeAll (memWriter []) vs).1.out ++ t) hdr stale (vs.map Val.ty) = some (vs, t) := by
  -- the encoding of one value
  have enc : ∀ v : Val, ∃ d, (∀ w : Writer, w.fail = (fun _ => none) → ∃ w', v.write w = (w', none) ∧ w'.out = w.out ++ d ∧
      w'.fail = (fun _ => none)) ∧ (v.Ok → ∀ k t, v.ty.read (d ++ t) (hdr k) (stale k) = some (v, t)) := by
    intro v
    cases v with
    | u16 i =>
      refine ⟨encode16 i, ?_, ?_⟩
      · intro w hw; simp [Val.write, writeUint16, Writer.write, hw]
      · intro hi k t
        obtain ⟨s', h1, h2⟩ := (C37_roundtrip memReader_lawful memReader_eager (encode16 i ++ t) t).1 i (stale k 2) hi (hst k 2) rfl
        simp only [Val.ty, Ty.read, h1]
        exact congrArg some (Prod.ext rfl h2)
    | u32 i =>
      refine ⟨encode32 i, ?_, ?_⟩
      · intro w hw; simp [Val.write, writeUint32, Writer.write, hw]
      · intro hi k t
        obtain ⟨s', h1, h2⟩ := (C37_roundtrip memReader_lawful memReader_eager (encode32 i ++ t) t).2.1 i (stale k 4) hi (hst k 4) rfl
        simp only [Val.ty, Ty.read, h1]
        exact congrArg some (Prod.ext rfl h2)
    | bool b =>
      refine ⟨[if b then 1 else 0], ?_, ?_⟩
      · intro w hw; simp [Val.write, writeBool, Writer.write, hw]
      · intro hi k t
        obtain ⟨s', h1, h2⟩ := (C37_roundtrip memReader_lawful memReader_eager ([if b then 1 else 0] ++ t) t).2.2 b (stale k 1) (hst k 1) rfl
        simp only [Val.ty, Ty.read, h1]
        exact congrArg some (Prod.ext rfl h2)
    | bytes b =>
      refine ⟨frame b, ?_, ?_⟩
      · intro w hw; simp [Val.write, writeBytes, writeUint16, Writer.write, hw, frame]
      · intro hi k t
        obtain ⟨s', h1, h2⟩ := C38_roundtrip_partial memReader_lawful memReader_eager (frame b ++ t) b t hi rfl (hdr k) (hh k) (stale k) (hst k) 2 (by omega)
        simp only [Val.ty, Ty.read, h1]
        exact congrArg some (Prod.ext rfl h2)
  have key : ∀ (vs : List Val) (w : Writer), w.fail = (fun _ => none) → (∀ v ∈ vs, v.Ok) →
      ∃ d, (writeAll w vs).2 = none ∧ (writeAll w vs).1.out = w.out ++ d ∧
        ∀ t, readAll (d ++ t) hdr stale (vs.map Val.ty) = some (vs, t) := by
    intro vs
    induction vs with
    | nil => intro w _ _; exact ⟨[], rfl, by simp [writeAll], fun t => rfl⟩
    | cons v vs ih =>
      intro w hw hok
      obtain ⟨d, h1, h2⟩ := enc v
      obtain ⟨w', e1, e2, e3⟩ := h1 w hw
      obtain ⟨d', i1, i2, i3⟩ := ih w' e3 (fun x hx => hok x (by simp [hx]))
      refine ⟨d ++ d', ?_, ?_, ?_⟩
      · simp only [writeAll, e1]; exact i1
      · simp only [writeAll, e1]; rw [i2, e2, List.append_assoc]
      · intro t
        simp only [List.map_cons, readAll]
        rw [List.append_assoc, h2 (hok v (by simp))]
        simp only [i3 t, Option.map_some]
  obtain ⟨d, h1, h2, h3⟩ := key vs (memWriter []) rfl hv
  refine ⟨h1, ?_⟩
  rw [h2]
  simpa [memWriter] using h3 t

example : ∀ v ∈ [Val.u16 65535, .bool true, .bytes [1, 2, 3], .u32 0xDEADBEEF], v.Ok := by
  simp [Val.Ok]

/-! ## C40: truncated input -/

/-- C40: for every lawful reader (any chunking), if the stream holds only a proper prefix of an encoded `uint16`,
`uint32` or byte string, no value is returned. -/
theorem C40_truncated_partial {R : Reader σ} (hl : R.Lawful) (s : σ) :
    (∀ i stale, i < 2 ^ 16 → stale.length = 2 → R.rest s <+: encode16 i → R.rest s ≠ encode16 i →
      ∃ e s', readUint16 R s stale = some (.error e, s')) ∧
    (∀ i stale, i < 2 ^ 32 → stale.length = 4 → R.rest s <+: encode32 i → R.rest s ≠ encode32 i →
      ∃ e s', readUint32 R s stale = some (.error e, s')) ∧
    (∀ b hdr stale fuel, b.length < 2 ^ 16 → hdr.length = 2 → (∀ n, (stale n : Bytes).length = n) → R.rest s <+: frame b → R.rest s ≠ frame b →
      (∃ e s', readBytes R s hdr stale fuel = .error e s') ∨ readBytes R s hdr stale fuel = .running) := by
  have hlen : ∀ d : Bytes, R.rest s <+: d → R.rest s ≠ d → (R.rest s).length < d.length := by
    intro d h hne
    rcases Nat.lt_or_ge (R.rest s).length d.length with h' | h'
    · exact h'
    · exact absurd (h.eq_of_length_le h') hne
  refine ⟨?_, ?_, ?_⟩
  · intro i stale _ hst hp hne
    have h := hlen _ hp hne
    rcases readUint16_sound hl s stale hst with h1 | ⟨a, b, s', _, h2⟩
    · exact h1
    · rw [h2, encode16_length] at h; simp at h; omega
  · intro i stale _ hst hp hne
    have h := hlen _ hp hne
    rw [encode32_length] at h
    unfold readUint32
    have h2 := hl.le s stale
    have h3 := congrArg List.length (hl.data s stale)
    have h4 := hl.len s stale
    simp only [List.length_append, List.length_take] at h3
    generalize R.read s stale = q at h2 h3 h4
    simp only
    cases hq : q.err with
    | some e => exact ⟨e, q.next, rfl⟩
    | none => rw [if_pos (by omega)]; exact ⟨_, _, rfl⟩
  · intro b hdr stale fuel hb hh hst hp hne
    cases hr : readBytes R s hdr stale fuel with
    | running => right; rfl
    | error e s' => left; exact ⟨e, s', rfl⟩
    | panic =>
      exfalso
      unfold readBytes at hr
      rcases readUint16_sound hl s hdr hh with ⟨e, s1, h1⟩ | ⟨x, y, s1, h1, _⟩
      · rw [h1] at hr; simp at hr
      · rw [h1] at hr
        simp only at hr
        split at hr
        · simp at hr
        · split at hr
          · simp at hr
          · split at hr <;> simp at hr
    | ok b' s' =>
      exfalso
      obtain ⟨h1, h2⟩ := C38_sound hl s hdr hh stale hst fuel b' s' hr
      have h := hlen _ hp hne
      rw [h2] at h hp
      -- both frames start with the same header, so the lengths agree
      obtain ⟨t, ht⟩ := hp
      unfold frame at ht h
      rw [Nat.mod_eq_of_lt h1, Nat.mod_eq_of_lt hb] at ht h
      simp only [List.append_assoc] at ht
      have hh := List.append_inj_left ht (by simp [encode16_length])
      have e1 := be16_encode16 b'.length h1 []
      have e2 := be16_encode16 b.length hb []
      rw [hh] at e1
      rw [e1] at e2
      simp only [Option.some.injEq] at e2
      simp only [List.length_append, encode16_length] at h
      omega

/-- C40: `ReadBool` on an exhausted stream reports an error for readers that never return zero bytes without error. -/
theorem C40_bool_partial {R : Reader σ} (hl : R.Lawful) (hne : R.NoEmpty) (s : σ) (stale : Bytes) (hst : stale.length = 1)
    (hs : R.rest s = []) : ∃ e s', readBool R s stale = some (.error e, s') := by
  have h3 := congrArg List.length (hl.data s stale)
  have h2 := hl.le s stale
  have h4 := hl.len s stale
  rw [hs] at h3
  simp only [List.length_append, List.length_take, List.length_nil] at h3
  have he := hne s stale (by rintro rfl; simp at hst) (by omega)
  unfold readBool
  cases hq : (R.read s stale).err with
  | none => exact absurd hq he
  | some e => exact ⟨e, (R.read s stale).next, by simp only [hq]⟩

example : oneByte.rest [] = [] ∧ readBool oneByte [] [1] = some (.error .eof, []) := ⟨rfl, rfl⟩

/-- `io.ReadFull` ends on every reader that never returns zero bytes without an error. -/
theorem readFull_ends {R : Reader σ} (hl : R.Lawful) (hne : R.NoEmpty) : ∀ (f : Nat) (s : σ) (buf : Bytes) (done : Nat),
    buf.length - done < f → readFullLoop R f s buf done ≠ none := by
  intro f
  induction f with
  | zero => intro s buf done h; omega
  | succ f ih =>
    intro s buf done h
    unfold readFullLoop
    by_cases hlt : done < buf.length
    · rw [if_pos hlt]
      have h1 := hl.len s (buf.drop done)
      have h4 := hne s (buf.drop done) (by intro h'; have := congrArg List.length h'; simp at this; omega)
      simp only
      generalize R.read s (buf.drop done) = q at h1 h4
      simp only [List.length_drop] at h1
      cases hq : q.err with
      | none =>
        simp only
        apply ih
        have : q.n ≠ 0 := fun h0 => h4 h0 hq
        simp only [List.length_append, List.length_take]
        omega
      | some e =>
        simp only
        split
        · simp
        · split <;> simp
    · rw [if_neg hlt]; simp

/-- C40 for byte strings on readers that make progress (never zero bytes without an error): a truncated byte string
is always reported as an error; the call does not hang. -/
theorem C40_bytes {R : Reader σ} (hl : R.Lawful) (hne : R.NoEmpty) (s : σ) (b hdr : Bytes) (hh : hdr.length = 2)
    (stale : Nat → Bytes) (fuel : Nat) (hf : 2 ^ 16 ≤ fuel) (hb : b.length < 2 ^ 16) (hst : ∀ n, (stale n).length = n) (hp : R.rest s <+: frame b)
    (hne' : R.rest s ≠ frame b) : ∃ e s', readBytes R s hdr stale fuel = .error e s' := by
  rcases (C40_truncated_partial hl s).2.2 b hdr stale fuel hb hh hst hp hne' with h | h
  · exact h
  · exfalso
    unfold readBytes at h
    rcases readUint16_sound hl s hdr hh with ⟨e, s1, h1⟩ | ⟨x, y, s1, h1, _⟩
    · rw [h1] at h; simp at h
    · rw [h1] at h
      simp only at h
      have hlt := byte_or_lt x y
      generalize y.toNat ||| x.toNat <<< 8 = length at h hlt
      split at h
      · simp at h
      · cases hr : readFullLoop R fuel s1 (stale length) 0 with
        | none => exact readFull_ends hl hne fuel s1 (stale length) 0 (by rw [hst]; omega) hr
        | some r =>
          rw [hr] at h
          simp only at h
          split at h <;> simp at h

example : oneByte.NoEmpty := by
  intro s p hp
  rcases s with _ | ⟨a, s⟩ <;> rcases p with _ | ⟨b, p⟩ <;> simp_all [oneByte]

/-! ## C74: write errors -/

/-- C74: a value write returns nil exactly when the writer accepted every `Write` call it made, otherwise the writer's
first error; after an error nothing more is written; on nil exactly the encoding has been written. -/
theorem C74_write_errors (w : Writer) (v : Val) :
    ((v.write w).2 = none →
      (v.write w).1.out = w.out ++ (match v with
        | .u16 i => encode16 i | .u32 i => encode32 i | .bool b => [if b then 1 else 0] | .bytes b => frame b)) ∧
    (∀ e, w.fail w.calls = some e → (v.write w).2 = some e ∧ (v.write w).1.calls = w.calls + 1) ∧
    (w.fail w.calls = none → (∀ b, v ≠ .bytes b) → (v.write w).2 = none) ∧
    (∀ b, v = .bytes b → w.fail w.calls = none → (v.write w).2 = w.fail (w.calls + 1)) := by
  cases v <;>
    simp only [Val.write, writeUint16, writeUint32, writeBool, writeBytes, Writer.write] <;>
    cases h1 : w.fail w.calls <;> simp [frame]
  rename_i b
  cases h2 : w.fail (w.calls + 1) <;> simp

example : (⟨[], 0, fun k => if k = 1 then some (.other 3) else none, fun _ => 1⟩ : Writer).fail 0 = none := rfl

/-- A lawful reader that first returns (0, nil). -/
def lazy : Reader Unit where
  rest _ := []
  read _ p := ⟨0, p, none, ()⟩

/-- C40 is false for `ReadBool`: with a reader that returns zero bytes and no error it returns the old content of the
pooled buffer as the value. -/
theorem C40_bool_refuted : lazy.Lawful ∧ lazy.rest () = [] ∧
    readBool lazy () [1] = some (.ok true, ()) ∧ readBool lazy () [0] = some (.ok false, ()) := by
  refine ⟨⟨fun _ _ => rfl, fun _ _ => Nat.zero_le _, fun _ _ => rfl⟩, rfl, rfl, rfl⟩

/-- Non-vacuity of `C40_truncated_partial`: a one-byte-at-a-time reader holding one byte of a `uint16`. -/
example : oneByte.Lawful ∧ oneByte.rest [1] <+: encode16 256 ∧ oneByte.rest [1] ≠ encode16 256 := by
  refine ⟨oneByte_lawful, ⟨[0], ?_⟩, ?_⟩ <;> simp [oneByte, encode16, byte]

end Verif.XBinary

import Verif.Go.Utf8
/-!
# `io.Reader` / `io.Writer` models

A reader is a state machine; `Lawful` is the documented contract of `io.Reader`: a call with a buffer `p` returns
`0 ≤ n ≤ len(p)`, has put the next `n` bytes of the stream into `p[:n]` and may have used the rest of `p` as scratch
space. Nothing is said about how many bytes a call delivers, nor when an error is returned.
-/
namespace Verif.Go.IO
open Verif.Go

/-- The errors the code distinguishes; `other` stands for any other error value. -/
inductive Err where
  | eof
  | unexpectedEof
  | invalidLength
  | other (code : Nat)
  deriving DecidableEq, Repr

/-- Result of one `Read(p)`: bytes read, the buffer afterwards, error, next state of the reader. -/
structure ReadRes (σ : Type) where
  n : Nat
  buf : Bytes
  err : Option Err
  next : σ

/-- An `io.Reader` (no code of /repo) with states `σ`. -/
structure Reader (σ : Type) where
  /-- the bytes the reader has not delivered yet -/
  rest : σ → Bytes
  read : σ → Bytes → ReadRes σ

/-- The contract of `io.Reader`. -/
structure Reader.Lawful {σ : Type} (R : Reader σ) : Prop where
  len : ∀ s p, (R.read s p).buf.length = p.length
  le : ∀ s p, (R.read s p).n ≤ p.length
  data : ∀ s p, (R.read s p).buf.take (R.read s p).n ++ R.rest (R.read s p).next = R.rest s

/-- A reader that always delivers as much as it can, with an error only when it has nothing left
(`bytes.Reader`, `bytes.Buffer`, `strings.Reader`). -/
def Reader.Eager {σ : Type} (R : Reader σ) : Prop :=
  ∀ s p, p ≠ [] → (R.read s p).n = min p.length (R.rest s).length ∧
    ((R.read s p).err = none ↔ R.rest s ≠ [])

/-- A reader that never returns zero bytes without an error (discouraged by the contract but allowed). -/
def Reader.NoEmpty {σ : Type} (R : Reader σ) : Prop :=
  ∀ s p, p ≠ [] → (R.read s p).n = 0 → (R.read s p).err ≠ none

/-- `bytes.Reader`/`bytes.Buffer`: state = unread bytes. -/
def memReader : Reader Bytes where
  rest s := s
  read s p :=
    let n := min p.length s.length
    if s = [] ∧ p ≠ [] then ⟨0, p, some .eof, s⟩ else ⟨n, s.take n ++ p.drop n, none, s.drop n⟩

theorem memReader_lawful : memReader.Lawful := by
  constructor
  · intro s p
    simp only [memReader]
    split
    · rfl
    · simp; omega
  · intro s p
    simp only [memReader]
    split <;> simp; omega
  · intro s p
    simp only [memReader]
    split
    · simp
    · rw [List.take_append_of_le_length (by simp), List.take_take, Nat.min_self]
      exact List.take_append_drop _ _

theorem memReader_eager : memReader.Eager := by
  intro s p hp
  simp only [memReader]
  by_cases hs : s = []
  · simp [hs, hp]
  · simp [hs]

/-- `io.ReadFull(r, buf)` = `io.ReadAtLeast(r, buf, len(buf))`: `done` bytes already read. Returns bytes read, buffer,
error and reader state; `none`: still looping after `fuel` calls of `Read`. -/
def readFullLoop {σ : Type} (R : Reader σ) : (fuel : Nat) → σ → (buf : Bytes) → (done : Nat) → Option (ReadRes σ)
  | 0, _, _, _ => none
  | f + 1, s, buf, done =>
    if done < buf.length then
      let r := R.read s (buf.drop done)
      let buf' := buf.take done ++ r.buf
      let done' := done + r.n
      match r.err with
      | none => readFullLoop R f r.next buf' done'
      | some e =>
        if done' ≥ buf.length then some ⟨done', buf', none, r.next⟩
        else if done' > 0 ∧ e = .eof then some ⟨done', buf', some .unexpectedEof, r.next⟩
        else some ⟨done', buf', some e, r.next⟩
    else some ⟨done, buf, none, s⟩

/-- A writer: collects the accepted bytes; `fail k` is the error (if any) of the `k`-th `Write` call, which then
accepts only the first `part k` bytes. A nil error means that everything was accepted (contract of `io.Writer`). -/
structure Writer where
  out : Bytes
  calls : Nat
  fail : Nat → Option Err
  part : Nat → Nat

/-- `Write` of an `io.Writer` (no code of /repo). -/
def Writer.write (w : Writer) (p : Bytes) : Writer × Option Err :=
  match w.fail w.calls with
  | none => ({ w with out := w.out ++ p, calls := w.calls + 1 }, none)
  | some e => ({ w with out := w.out ++ p.take (w.part w.calls), calls := w.calls + 1 }, some e)

/-- `bytes.Buffer` as a writer: never fails. -/
def memWriter (out : Bytes) : Writer := ⟨out, 0, fun _ => none, fun _ => 0⟩

end Verif.Go.IO

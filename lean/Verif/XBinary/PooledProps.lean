import Verif.XBinary.Pooled
import Verif.XBinary.Props
import Verif.XBytes.ShareProps
/-! # xbinary on shared pooled memory: concurrent calls do not disturb each other (C100) -/
namespace Verif.XBinary
open Verif.Go Verif.Go.IO Verif.XBytes Verif.Conc

variable {α β σ : Type}

/-! ## Specification: the calls one after the other, on their own -/

/-- The call `c` with writer `w` and reader `s`, alone: result, writer and reader afterwards. The old contents of the
temporary buffers are arbitrary. -/
def One (R : Reader σ) (fuel : Nat) (w : Writer) (s : σ) (c : Call) (o : Out Bytes × Writer × σ) : Prop :=
  ∃ (hdr : Bytes) (stale : Nat → Bytes), hdr.length = 2 ∧ (∀ n, (stale n).length = n) ∧
    match c with
    | .w16 i => o = outW (writeUint16 w i) s
    | .w32 i => o = outW (writeUint32 w i) s
    | .wbool b => o = outW (writeBool w b) s
    | .wbytes b => o = outW (writeBytes w b) s
    | .r16 => ∃ r, readUint16 R s (stale 2) = some r ∧ o = outR .num w r
    | .r32 => ∃ r, readUint32 R s (stale 4) = some r ∧ o = outR .num w r
    | .rbool => ∃ r, readBool R s (stale 1) = some r ∧ o = outR .flag w r
    | .rbytes =>
      match readBytes R s hdr stale fuel with
      | .ok b s' => o = (.slice b, w, s')
      | .error e s' => o = (.err e, w, s')
      | .running => o = (.running, w, s)
      | .panic => False

/-- The calls `cs` one after the other: their results, the writer and the reader afterwards. -/
inductive Many (R : Reader σ) (fuel : Nat) : List Call → Writer → σ → List (Out Bytes) × Writer × σ → Prop where
  | nil (w : Writer) (s : σ) : Many R fuel [] w s ([], w, s)
  | stop {c : Call} {cs : List Call} {w w' : Writer} {s s' : σ} : One R fuel w s c (.running, w', s') →
      Many R fuel (c :: cs) w s ([.running], w', s')
  | cons {c : Call} {cs : List Call} {w w' : Writer} {s s' : σ} {o : Out Bytes} {q : List (Out Bytes) × Writer × σ} :
      One R fuel w s c (o, w', s') → o ≠ .running → Many R fuel cs w' s' q → Many R fuel (c :: cs) w s (o :: q.1, q.2)

/-- Two results are the same; a slice stands for bytes that satisfy `P`. -/
def Out.Agrees (P : Nat → Bytes → Prop) : Out (Option Nat) → Out Bytes → Prop
  | .ok, .ok => True
  | .num n, .num m => n = m
  | .flag b, .flag b' => b = b'
  | .slice none, .slice b => b = []
  | .slice (some h), .slice b => P h b
  | .err e, .err e' => e = e'
  | .running, .running => True
  | _, _ => False

/-- Buffer `h` of goroutine `i` holds exactly the bytes `b`: it has their length and no spare capacity. -/
def Holds (y : Sys α) (i h : Nat) (b : Bytes) : Prop :=
  ∃ s, (y.th i).own h = some s ∧ s.len = b.length ∧ s.reg.cap = b.length ∧
    b = (List.range b.length).map fun j => y.mem s.reg.arr (s.reg.off + j)

/-! ## Weakest preconditions for a goroutine with private buffers -/

/-- Proof only: the buffers in use, by number. -/
abbrev Tab := Nat → Option PBuf

/-- Every run of the program from the table `own` ends, without panic, in a state that satisfies `Q`. -/
def wp : Code α → Tab → Nat → (α → Tab → Nat → Prop) → Prop
  | .ret a, own, n, Q => Q a own n
  | .bad, _, _, _ => False
  | .make l c k, own, n, Q => l ≤ c ∧ wp (k n) (upd own n (some ⟨l, c, fun _ => 0⟩)) (n + 1) Q
  | .malloc s c k, own, n, Q => 0 ≤ s ∧ ∀ d, wp (k n) (upd own n (some ⟨s.toNat, (max s c).toNat, d⟩)) (n + 1) Q
  | .free h k, own, n, Q => own h ≠ none ∧ wp k (upd own h none) n Q
  | .reslice h lo hi k, own, n, Q => ∃ b, own h = some b ∧ lo ≤ hi ∧ hi ≤ b.cap ∧
      wp k (upd own h (some ⟨hi - lo, b.cap - lo, fun j => b.data (lo + j)⟩)) n Q
  | .load h i k, own, n, Q => ∃ b, own h = some b ∧ i < b.len ∧ wp (k (b.data i)) own n Q
  | .store h i v k, own, n, Q => ∃ b, own h = some b ∧ i < b.len ∧
      wp k (upd own h (some { b with data := fun j => if j = i then v else b.data j })) n Q

theorem wp_step {p p' : PThread α} (hs : PStep p p') {Q : α → Tab → Nat → Prop} (h : wp p.code p.own p.next Q) :
    wp p'.code p'.own p'.next Q := by
  cases hs with
  | make l c k own n hle => exact h.2
  | makeBad l c k own n hlt => have := h.1; omega
  | malloc size capacity k own n d h0 => exact h.2 d
  | mallocBad size capacity k own n h0 => have := h.1; omega
  | free h' k own n b hb => exact h.2
  | freeBad h' k own n hb => exact absurd hb h.1
  | reslice h' lo hi k own n b hb h1 h2 =>
    obtain ⟨b', e, -, -, hw⟩ := h
    obtain rfl : b = b' := by simpa using hb.symm.trans e
    exact hw
  | resliceBad h' lo hi k own n hb => obtain ⟨b', e, h1, h2, -⟩ := h; exact absurd ⟨h1, h2⟩ (hb b' e)
  | load h' i k own n b hb hlt =>
    obtain ⟨b', e, -, hw⟩ := h
    obtain rfl : b = b' := by simpa using hb.symm.trans e
    exact hw
  | loadBad h' i k own n hb => obtain ⟨b', e, h1, -⟩ := h; exact absurd h1 (hb b' e)
  | store h' i v k own n b hb hlt =>
    obtain ⟨b', e, -, hw⟩ := h
    obtain rfl : b = b' := by simpa using hb.symm.trans e
    exact hw
  | storeBad h' i v k own n hb => obtain ⟨b', e, h1, -⟩ := h; exact absurd h1 (hb b' e)

theorem wp_reach {c : Code α} {p : PThread α} (hr : PReach c p) {Q : α → Tab → Nat → Prop} (h : wp c (fun _ => none) 0 Q) :
    wp p.code p.own p.next Q := by
  induction hr with
  | start => exact h
  | step _ hs ih => exact wp_step hs ih

theorem wp_mono {Q Q' : α → Tab → Nat → Prop} (hq : ∀ a own n, Q a own n → Q' a own n) : ∀ (c : Code α) (own : Tab) (n : Nat),
    wp c own n Q → wp c own n Q' := by
  intro c
  induction c with
  | ret a => intro own n h; exact hq _ _ _ h
  | bad => intro own n h; exact h
  | make l c k ih => intro own n h; exact ⟨h.1, ih _ _ _ h.2⟩
  | malloc s c k ih => intro own n h; exact ⟨h.1, fun d => ih _ _ _ (h.2 d)⟩
  | free h' k ih => intro own n h; exact ⟨h.1, ih _ _ h.2⟩
  | reslice h' lo hi k ih => rintro own n ⟨b, h1, h2, h3, h4⟩; exact ⟨b, h1, h2, h3, ih _ _ h4⟩
  | load h' i k ih => rintro own n ⟨b, h1, h2, h3⟩; exact ⟨b, h1, h2, ih _ _ _ h3⟩
  | store h' i v k ih => rintro own n ⟨b, h1, h2, h3⟩; exact ⟨b, h1, h2, ih _ _ h3⟩

theorem wp_bind {f : α → Code β} {Q : β → Tab → Nat → Prop} : ∀ (c : Code α) (own : Tab) (n : Nat),
    wp c own n (fun a own n => wp (f a) own n Q) → wp (c.bind f) own n Q := by
  intro c
  induction c with
  | ret a => intro own n h; exact h
  | bad => intro own n h; exact h
  | make l c k ih => intro own n h; exact ⟨h.1, ih _ _ _ h.2⟩
  | malloc s c k ih => intro own n h; exact ⟨h.1, fun d => ih _ _ _ (h.2 d)⟩
  | free h' k ih => intro own n h; exact ⟨h.1, ih _ _ h.2⟩
  | reslice h' lo hi k ih => rintro own n ⟨b, h1, h2, h3, h4⟩; exact ⟨b, h1, h2, h3, ih _ _ h4⟩
  | load h' i k ih => rintro own n ⟨b, h1, h2, h3⟩; exact ⟨b, h1, h2, ih _ _ _ h3⟩
  | store h' i v k ih => rintro own n ⟨b, h1, h2, h3⟩; exact ⟨b, h1, h2, ih _ _ h3⟩

theorem upd_upd {γ : Type} (f : Nat → γ) (i : Nat) (x z : γ) : upd (upd f i x) i z = upd f i z := by
  funext j; simp only [upd]; split <;> rfl

theorem upd_self {γ : Type} {f : Nat → γ} {i : Nat} {x : γ} (h : f i = x) : upd f i x = f := by
  funext j; simp only [upd]; split
  · rename_i e; rw [e, h]
  · rfl

/-- The bytes of a buffer. -/
def _root_.Verif.XBytes.PBuf.list (b : PBuf) : Bytes := (List.range b.len).map b.data

@[simp] theorem _root_.Verif.XBytes.PBuf.list_length (b : PBuf) : b.list.length = b.len := by simp [PBuf.list]

theorem _root_.Verif.XBytes.PBuf.list_getElem? (b : PBuf) (j : Nat) : b.list[j]? = if j < b.len then some (b.data j) else none := by
  simp only [PBuf.list, List.getElem?_map]
  split
  · rename_i h; simp [List.getElem?_range h]
  · rename_i h; rw [List.getElem?_eq_none (by simp; omega)]; rfl

theorem wp_loadAll {h : Nat} {b : PBuf} {Q : α → Tab → Nat → Prop} {own : Tab} {nx : Nat} (hb : own h = some b) :
    ∀ (n off : Nat) (k : Bytes → Code α), off + n ≤ b.len → wp (k ((b.list.drop off).take n)) own nx Q →
      wp (loadAll h off n k) own nx Q := by
  intro n
  induction n with
  | zero => intro off k _ hw; simpa [loadAll] using hw
  | succ n ih =>
    intro off k hle hw
    refine ⟨b, hb, by omega, ?_⟩
    refine ih (off + 1) (fun bs => k (b.data off :: bs)) (by omega) ?_
    have e : (b.list.drop off).take (n + 1) = b.data off :: (b.list.drop (off + 1)).take n := by
      rw [List.drop_eq_getElem_cons (by simp; omega), List.take_succ_cons]
      congr 1
      simp [PBuf.list]
    rw [e] at hw
    exact hw

theorem wp_storeAll {h : Nat} {Q : α → Tab → Nat → Prop} {nx : Nat} {k : Code α} : ∀ (bs : Bytes) (off : Nat) (own : Tab) (b : PBuf),
    own h = some b → off + bs.length ≤ b.len →
    (∀ d, PBuf.list { b with data := d } = b.list.take off ++ bs ++ b.list.drop (off + bs.length) →
      wp k (upd own h (some { b with data := d })) nx Q) →
      wp (storeAll h off bs k) own nx Q := by
  intro bs
  induction bs with
  | nil =>
    intro off own b hb hle hw
    have := hw b.data (by simp)
    rw [upd_self hb] at this
    exact this
  | cons x bs ih =>
    intro off own b hb hle hw
    simp only [List.length_cons] at hle
    refine ⟨b, hb, by omega, ?_⟩
    refine ih (off + 1) _ { b with data := fun j => if j = off then x else b.data j } (by simp) (by simp only; omega) ?_
    intro d hd
    rw [upd_upd]
    refine hw d ?_
    simp only at hd
    rw [hd]
    apply List.ext_getElem?
    intro j
    simp only [List.getElem?_append, List.getElem?_take, List.getElem?_drop, PBuf.list_getElem?, List.length_append, List.length_take,
      PBuf.list_length, List.length_cons, List.getElem?_cons]
    by_cases h1 : j < off
    · have h2 : j < off + 1 := by omega
      have h3 : j ≠ off := by omega
      have h4 : min off b.len = off := by omega
      have h5 : min (off + 1) b.len = off + 1 := by omega
      have h6 : j < off + 1 + bs.length := by omega
      have h7 : j < off + (bs.length + 1) := by omega
      simp [h1, h2, h3, h4, h5, h6, h7]
    · have h4 : min off b.len = off := by omega
      have h5 : min (off + 1) b.len = off + 1 := by omega
      rw [h4, h5]
      by_cases h6 : j = off
      · subst h6
        have h7 : j < j + 1 + bs.length := by omega
        have h8 : j < b.len := by omega
        simp [h7, h8]
      · have h7 : ¬ j < off + 1 := by omega
        have h8 : ¬ j - off = 0 := by omega
        have h9 : j - (off + 1) = j - off - 1 := by omega
        by_cases h10 : j < off + 1 + bs.length
        · have : j < off + (bs.length + 1) := by omega
          simp [h1, h7, h8, h9, h10, this]
        · have h11 : ¬ j < off + (bs.length + 1) := by omega
          have h12 : off + 1 + bs.length + (j - (off + 1 + bs.length)) = off + (bs.length + 1) + (j - (off + (bs.length + 1))) := by omega
          have h13 : ¬ off + (bs.length + 1) + (j - (off + (bs.length + 1))) = off := by omega
          simp [h10, h11, h12, h13]

/-- The specification of `Write`: nothing changes. -/
theorem wp_writeC {w : Writer} {h n : Nat} {own : Tab} {nx : Nat} {b : PBuf} {Q : Writer × Option Err → Tab → Nat → Prop}
    (hb : own h = some b) (hn : b.len = n) (hq : Q (w.write b.list) own nx) : wp (writeC w h n) own nx Q := by
  refine wp_loadAll hb n 0 _ (by omega) ?_
  rw [List.drop_zero, List.take_of_length_le (by simp; omega)]
  exact hq

/-- The specification of `Read`: the window is what the reader makes of it. -/
theorem wp_readC {R : Reader σ} (hl : R.Lawful) {s : σ} {h off n : Nat} {own : Tab} {nx : Nat} {b : PBuf}
    {Q : Nat × Option Err × σ → Tab → Nat → Prop} (hb : own h = some b) (hn : b.len = n) (hoff : off ≤ n)
    (hq : ∀ d, PBuf.list { b with data := d } = b.list.take off ++ (R.read s (b.list.drop off)).buf →
      Q ((R.read s (b.list.drop off)).n, (R.read s (b.list.drop off)).err, (R.read s (b.list.drop off)).next)
        (upd own h (some { b with data := d })) nx) :
    wp (readC R s h off n) own nx Q := by
  have hlen := hl.len s (b.list.drop off)
  rw [List.length_drop, PBuf.list_length] at hlen
  refine wp_loadAll hb (n - off) off _ (by omega) ?_
  rw [List.take_of_length_le (by simp; omega)]
  refine wp_storeAll _ off own b hb (by omega) ?_
  intro d hd
  refine hq d ?_
  rw [hd, List.append_right_eq_self]
  exact List.drop_of_length_le (by rw [hlen, PBuf.list_length]; omega)

/-- No handle from `n` on is in use. -/
def Fresh (own : Tab) (n : Nat) : Prop := ∀ m, n ≤ m → own m = none

theorem list_one {d : Nat → UInt8} {c : Nat} : PBuf.list ⟨1, c, d⟩ = [d 0] := rfl
theorem list_two {d : Nat → UInt8} {c : Nat} : PBuf.list ⟨2, c, d⟩ = [d 0, d 1] := rfl
theorem list_four {d : Nat → UInt8} {c : Nat} : PBuf.list ⟨4, c, d⟩ = [d 0, d 1, d 2, d 3] := rfl

/-- The postcondition of a call that leaves the buffers of the caller as they are and has freed its own. -/
def Clean (own : Tab) (n : Nat) (P : α → Prop) : α → Tab → Nat → Prop := fun a own' n' => own' = own ∧ n' = n + 1 ∧ P a

theorem wp_writeUint16C {w : Writer} {i : Nat} {own : Tab} {n : Nat} (hf : Fresh own n) :
    wp (writeUint16C w i) own n (Clean own n fun r => r = writeUint16 w i) := by
  refine ⟨by omega, fun d => ⟨_, upd_same _ _ _, by simp, ⟨_, upd_same _ _ _, by simp, ?_⟩⟩⟩
  refine wp_bind _ _ _ (wp_writeC (upd_same _ _ _) rfl ⟨by simp, ?_, rfl, ?_⟩)
  · simp only [upd_upd]; exact upd_self (hf n (Nat.le_refl _))
  · rfl

theorem wp_writeUint32C {w : Writer} {i : Nat} {own : Tab} {n : Nat} (hf : Fresh own n) :
    wp (writeUint32C w i) own n (Clean own n fun r => r = writeUint32 w i) := by
  refine ⟨by omega, fun d => ⟨_, upd_same _ _ _, by simp, ⟨_, upd_same _ _ _, by simp,
    ⟨_, upd_same _ _ _, by simp, ⟨_, upd_same _ _ _, by simp, ?_⟩⟩⟩⟩⟩
  refine wp_bind _ _ _ (wp_writeC (upd_same _ _ _) rfl ⟨by simp, ?_, rfl, ?_⟩)
  · simp only [upd_upd]; exact upd_self (hf n (Nat.le_refl _))
  · rfl

theorem wp_writeBoolC {w : Writer} {b : Bool} {own : Tab} {n : Nat} (hf : Fresh own n) :
    wp (writeBoolC w b) own n (Clean own n fun r => r = writeBool w b) := by
  refine ⟨by omega, fun d => ⟨_, upd_same _ _ _, by simp, ?_⟩⟩
  refine wp_bind _ _ _ (wp_writeC (upd_same _ _ _) rfl ⟨by simp, ?_, rfl, ?_⟩)
  · simp only [upd_upd]; exact upd_self (hf n (Nat.le_refl _))
  · rfl

theorem wp_writeBytesC {w : Writer} {h : Nat} {b : PBuf} {own : Tab} {n : Nat} (hf : Fresh own n) (hb : own h = some b) :
    wp (writeBytesC w h b.len) own n (Clean own n fun r => r = writeBytes w b.list) := by
  refine wp_bind _ _ _ (wp_mono ?_ _ _ _ (wp_writeUint16C hf))
  rintro r own' n' ⟨rfl, rfl, rfl⟩
  unfold writeBytes
  rw [PBuf.list_length]
  generalize writeUint16 w (b.len % 2 ^ 16) = r
  obtain ⟨w', _ | e⟩ := r
  · exact wp_writeC hb rfl ⟨rfl, rfl, rfl⟩
  · exact ⟨rfl, rfl, rfl⟩

theorem wp_readUint16C {R : Reader σ} (hl : R.Lawful) {s : σ} {own : Tab} {n : Nat} (hf : Fresh own n) :
    wp (readUint16C R s) own n (Clean own n fun r => ∃ stale : Bytes, stale.length = 2 ∧ readUint16 R s stale = some r) := by
  have hfr : ∀ x : Option PBuf, upd (upd own n x) n none = own := fun x => by rw [upd_upd]; exact upd_self (hf n (Nat.le_refl _))
  refine ⟨by omega, fun d => wp_bind _ _ _ (wp_readC hl (upd_same _ _ _) rfl (by omega) ?_)⟩
  intro d' hd'
  simp only [List.take_zero, List.nil_append, List.drop_zero, upd_upd] at hd' ⊢
  have hst : (PBuf.list ⟨Int.toNat 2, (max 2 2 : Int).toNat, d⟩).length = 2 := rfl
  generalize PBuf.list ⟨Int.toNat 2, (max 2 2 : Int).toNat, d⟩ = stale at hd' hst ⊢
  have hd2 : (R.read s stale).buf = [d' 0, d' 1] := hd'.symm
  have hst' : readUint16 R s stale = readUint16 R s stale := rfl
  conv at hst' => rhs; unfold readUint16
  simp only [hd2] at hst'
  cases he : (R.read s stale).err with
  | some e =>
    simp only [he] at hst' ⊢
    exact ⟨by simp, hfr _, rfl, stale, hst, hst'⟩
  | none =>
    simp only [he] at hst' ⊢
    split
    · rename_i hlt
      rw [if_pos hlt] at hst'
      exact ⟨by simp, hfr _, rfl, stale, hst, hst'⟩
    · rename_i hlt
      rw [if_neg hlt] at hst'
      exact ⟨_, upd_same _ _ _, by simp, ⟨_, upd_same _ _ _, by simp, by simp, hfr _, rfl, stale, hst, hst'⟩⟩

theorem wp_readUint32C {R : Reader σ} (hl : R.Lawful) {s : σ} {own : Tab} {n : Nat} (hf : Fresh own n) :
    wp (readUint32C R s) own n (Clean own n fun r => ∃ stale : Bytes, stale.length = 4 ∧ readUint32 R s stale = some r) := by
  have hfr : ∀ x : Option PBuf, upd (upd own n x) n none = own := fun x => by rw [upd_upd]; exact upd_self (hf n (Nat.le_refl _))
  refine ⟨by omega, fun d => wp_bind _ _ _ (wp_readC hl (upd_same _ _ _) rfl (by omega) ?_)⟩
  intro d' hd'
  simp only [List.take_zero, List.nil_append, List.drop_zero, upd_upd] at hd' ⊢
  have hst : (PBuf.list ⟨Int.toNat 4, (max 4 4 : Int).toNat, d⟩).length = 4 := rfl
  generalize PBuf.list ⟨Int.toNat 4, (max 4 4 : Int).toNat, d⟩ = stale at hd' hst ⊢
  have hd2 : (R.read s stale).buf = [d' 0, d' 1, d' 2, d' 3] := hd'.symm
  have hst' : readUint32 R s stale = readUint32 R s stale := rfl
  conv at hst' => rhs; unfold readUint32
  simp only [hd2] at hst'
  cases he : (R.read s stale).err with
  | some e =>
    simp only [he] at hst' ⊢
    exact ⟨by simp, hfr _, rfl, stale, hst, hst'⟩
  | none =>
    simp only [he] at hst' ⊢
    split
    · rename_i hlt
      rw [if_pos hlt] at hst'
      exact ⟨by simp, hfr _, rfl, stale, hst, hst'⟩
    · rename_i hlt
      rw [if_neg hlt] at hst'
      exact ⟨_, upd_same _ _ _, by simp, ⟨_, upd_same _ _ _, by simp, ⟨_, upd_same _ _ _, by simp,
        ⟨_, upd_same _ _ _, by simp, by simp, hfr _, rfl, stale, hst, hst'⟩⟩⟩⟩

theorem wp_readBoolC {R : Reader σ} (hl : R.Lawful) {s : σ} {own : Tab} {n : Nat} (hf : Fresh own n) :
    wp (readBoolC R s) own n (Clean own n fun r => ∃ stale : Bytes, stale.length = 1 ∧ readBool R s stale = some r) := by
  have hfr : ∀ x : Option PBuf, upd (upd own n x) n none = own := fun x => by rw [upd_upd]; exact upd_self (hf n (Nat.le_refl _))
  refine ⟨by omega, fun d => wp_bind _ _ _ (wp_readC hl (upd_same _ _ _) rfl (by omega) ?_)⟩
  intro d' hd'
  simp only [List.take_zero, List.nil_append, List.drop_zero, upd_upd] at hd' ⊢
  have hst : (PBuf.list ⟨Int.toNat 1, (max 1 1 : Int).toNat, d⟩).length = 1 := rfl
  generalize PBuf.list ⟨Int.toNat 1, (max 1 1 : Int).toNat, d⟩ = stale at hd' hst ⊢
  have hd2 : (R.read s stale).buf = [d' 0] := hd'.symm
  have hst' : readBool R s stale = readBool R s stale := rfl
  conv at hst' => rhs; unfold readBool
  simp only [hd2] at hst'
  cases he : (R.read s stale).err with
  | some e =>
    simp only [he] at hst' ⊢
    exact ⟨by simp, hfr _, rfl, stale, hst, hst'⟩
  | none =>
    simp only [he] at hst' ⊢
    exact ⟨_, upd_same _ _ _, by simp, by simp, hfr _, rfl, stale, hst, hst'⟩

theorem wp_readFullC {R : Reader σ} (hl : R.Lawful) {h : Nat} {n : Nat} : ∀ (f : Nat) (s : σ) (done : Nat) (own : Tab) (nx : Nat) (b : PBuf),
    own h = some b → b.len = n → wp (readFullC R h n f s done) own nx (fun r own' nx' => nx' = nx ∧
      ∃ d, own' = upd own h (some { b with data := d }) ∧
        r = (readFullLoop R f s b.list done).map (fun q => (q.err, q.next)) ∧
        ∀ q, readFullLoop R f s b.list done = some q → PBuf.list { b with data := d } = q.buf) := by
  intro f
  induction f with
  | zero => intro s done own nx b hb hn; exact ⟨rfl, b.data, (upd_self hb).symm, rfl, by simp [readFullLoop]⟩
  | succ f ih =>
    intro s done own nx b hb hn
    subst hn
    unfold readFullC readFullLoop
    rw [PBuf.list_length]
    split
    · rename_i hlt
      refine wp_bind _ _ _ (wp_readC hl hb rfl (by omega) ?_)
      intro d hd
      simp only
      cases he : (R.read s (b.list.drop done)).err with
      | none =>
        simp only
        refine wp_mono ?_ _ _ _ (ih _ _ _ _ _ (upd_same _ _ _) rfl)
        rintro r own' nx' ⟨h1, d', h2, h3, h4⟩
        rw [upd_upd] at h2
        rw [hd] at h3 h4
        exact ⟨h1, d', h2, h3, h4⟩
      | some e =>
        simp only
        split
        · exact ⟨rfl, d, rfl, rfl, fun q hq => by simp at hq; subst hq; exact hd⟩
        · split
          · exact ⟨rfl, d, rfl, rfl, fun q hq => by simp at hq; subst hq; exact hd⟩
          · exact ⟨rfl, d, rfl, rfl, fun q hq => by simp at hq; subst hq; exact hd⟩
    · exact ⟨rfl, b.data, (upd_self hb).symm, rfl, fun q hq => by simp at hq; subst hq; rfl⟩

/-- A private buffer that holds exactly the bytes `b`. -/
def PHolds (own : Tab) (h : Nat) (b : Bytes) : Prop := ∃ x, own h = some x ∧ x.len = b.length ∧ x.cap = b.length ∧ x.list = b

/-- The postcondition of one call: the result is that of the call alone; the table has got at most a returned slice. -/
def Post (R : Reader σ) (fuel : Nat) (w : Writer) (s : σ) (c : Call) (own : Tab) (n : Nat) :
    Out (Option Nat) × Writer × σ → Tab → Nat → Prop := fun o own' n' =>
  n ≤ n' ∧ Fresh own' n' ∧ (∀ m, own' m = own m ∨ (own m = none ∧ (o.1 = .slice (some m) ∨ o.1 = .running))) ∧
    ∃ oP, One R fuel w s c (oP, o.2) ∧ o.1.Agrees (PHolds own') oP

/-- Old contents of a given length. -/
def at1 (x : Bytes) (n : Nat) : Bytes := if n = x.length then x else List.replicate n 0

theorem at1_length (x : Bytes) (n : Nat) : (at1 x n).length = n := by
  unfold at1; split
  · rename_i h; exact h.symm
  · simp

theorem at1_same {x : Bytes} {n : Nat} (h : x.length = n) : at1 x n = x := by simp [at1, h.symm]

theorem Fresh.mono {own : Tab} {n m : Nat} (h : Fresh own n) (hm : n ≤ m) : Fresh own m := fun k hk => h k (by omega)

/-- A call that has freed its buffers. -/
theorem post_clean {R : Reader σ} {fuel : Nat} {w : Writer} {s : σ} {c : Call} {own : Tab} {n n' : Nat} (hf : Fresh own n) (hn : n ≤ n')
    {o : Out (Option Nat) × Writer × σ} (h : ∃ oP, One R fuel w s c (oP, o.2) ∧ o.1.Agrees (PHolds own) oP) :
    Post R fuel w s c own n o own n' := ⟨hn, hf.mono hn, fun _ => .inl rfl, h⟩

theorem wp_callW {R : Reader σ} {fuel : Nat} {w : Writer} {s : σ} {c : Call} {own : Tab} {n n' : Nat} (hf : Fresh own n) (hn : n ≤ n')
    {r : Writer × Option Err} (h : One R fuel w s c (outW r s)) : Post R fuel w s c own n (outW r s) own n' := by
  refine post_clean hf hn ?_
  obtain ⟨w', _ | e⟩ := r
  · exact ⟨_, h, trivial⟩
  · exact ⟨_, h, rfl⟩

theorem wp_call {R : Reader σ} (hl : R.Lawful) {fuel : Nat} {w : Writer} {s : σ} {own : Tab} {n : Nat} (hf : Fresh own n) (c : Call) :
    wp (callC R fuel w s c) own n (Post R fuel w s c own n) := by
  cases c with
  | w16 i =>
    refine wp_bind _ _ _ (wp_mono ?_ _ _ _ (wp_writeUint16C hf))
    rintro r own' n' ⟨rfl, rfl, rfl⟩
    exact wp_callW (r := writeUint16 w i) hf (by omega) ⟨[0, 0], at1 [], rfl, at1_length _, rfl⟩
  | w32 i =>
    refine wp_bind _ _ _ (wp_mono ?_ _ _ _ (wp_writeUint32C hf))
    rintro r own' n' ⟨rfl, rfl, rfl⟩
    exact wp_callW (r := writeUint32 w i) hf (by omega) ⟨[0, 0], at1 [], rfl, at1_length _, rfl⟩
  | wbool b =>
    refine wp_bind _ _ _ (wp_mono ?_ _ _ _ (wp_writeBoolC hf))
    rintro r own' n' ⟨rfl, rfl, rfl⟩
    exact wp_callW (r := writeBool w b) hf (by omega) ⟨[0, 0], at1 [], rfl, at1_length _, rfl⟩
  | wbytes b =>
    refine ⟨Nat.le_refl _, wp_storeAll _ _ _ _ (upd_same _ _ _) (by simp) ?_⟩
    intro d hd
    have hd' : PBuf.list ⟨b.length, b.length, d⟩ = b := by
      refine hd.trans ?_
      rw [List.drop_of_length_le (by simp)]; simp
    rw [upd_upd]
    have hf' : Fresh (upd own n (some ⟨b.length, b.length, d⟩)) (n + 1) := by
      intro m hm; rw [upd_ne _ _ (by omega)]; exact hf m (by omega)
    have hwb := wp_writeBytesC (w := w) (h := n) (b := ⟨b.length, b.length, d⟩) hf' (upd_same _ _ _)
    simp only [hd'] at hwb
    refine wp_bind _ _ _ (wp_mono ?_ _ _ _ hwb)
    rintro r own' n' ⟨rfl, rfl, rfl⟩
    refine ⟨by simp, ?_⟩
    rw [upd_upd, upd_self (hf n (Nat.le_refl _))]
    exact wp_callW (r := writeBytes w b) hf (by omega) ⟨[0, 0], at1 [], rfl, at1_length _, rfl⟩
  | r16 =>
    refine wp_bind _ _ _ (wp_mono ?_ _ _ _ (wp_readUint16C hl hf))
    rintro r own' n' ⟨rfl, rfl, stale, h1, h2⟩
    refine post_clean hf (by omega) ?_
    refine ⟨(outR .num w r).1, ⟨[0, 0], at1 stale, rfl, at1_length _, r, by rw [at1_same h1, h2], ?_⟩, ?_⟩
    · obtain ⟨_ | v, s'⟩ := r <;> rfl
    · obtain ⟨_ | v, s'⟩ := r <;> rfl
  | r32 =>
    refine wp_bind _ _ _ (wp_mono ?_ _ _ _ (wp_readUint32C hl hf))
    rintro r own' n' ⟨rfl, rfl, stale, h1, h2⟩
    refine post_clean hf (by omega) ?_
    refine ⟨(outR .num w r).1, ⟨[0, 0], at1 stale, rfl, at1_length _, r, by rw [at1_same h1, h2], ?_⟩, ?_⟩
    · obtain ⟨_ | v, s'⟩ := r <;> rfl
    · obtain ⟨_ | v, s'⟩ := r <;> rfl
  | rbool =>
    refine wp_bind _ _ _ (wp_mono ?_ _ _ _ (wp_readBoolC hl hf))
    rintro r own' n' ⟨rfl, rfl, stale, h1, h2⟩
    refine post_clean hf (by omega) ?_
    refine ⟨(outR .flag w r).1, ⟨[0, 0], at1 stale, rfl, at1_length _, r, by rw [at1_same h1, h2], ?_⟩, ?_⟩
    · obtain ⟨_ | v, s'⟩ := r <;> rfl
    · obtain ⟨_ | v, s'⟩ := r <;> rfl
  | rbytes =>
    refine wp_bind _ _ _ (wp_bind _ _ _ (wp_mono ?_ _ _ _ (wp_readUint16C hl hf)))
    rintro ⟨_ | length, s'⟩ own' n' ⟨rfl, rfl, hdr, h1, h2⟩
    · rename_i e
      refine post_clean hf (by omega) ⟨.err e, ⟨hdr, at1 [], h1, at1_length _, ?_⟩, rfl⟩
      simp [readBytes, h2]
    · simp only
      split
      · rename_i h0
        refine post_clean hf (by omega) ⟨.slice [], ⟨hdr, at1 [], h1, at1_length _, ?_⟩, rfl⟩
        simp [readBytes, h2, h0]
      · rename_i h0
        refine ⟨by omega, fun d => wp_bind _ _ _ (wp_mono ?_ _ _ _ (wp_readFullC hl fuel s' 0 _ _ _ (upd_same _ _ _) (by simp)))⟩
        rintro q own2 n2 ⟨rfl, d', rfl, rfl, hq⟩
        have hlen : (PBuf.list ⟨Int.toNat length, (max (length : Int) length).toNat, d⟩).length = length := by simp
        generalize PBuf.list ⟨Int.toNat length, (max (length : Int) length).toNat, d⟩ = stale at hq hlen ⊢
        have hfl := at1_same hlen
        simp only [upd_upd]
        cases hr : readFullLoop R fuel s' stale 0 with
        | none =>
          refine ⟨by omega, ?_, ?_, .running, ⟨hdr, at1 stale, h1, at1_length _, ?_⟩, trivial⟩
          · intro m hm; rw [upd_ne _ _ (by omega)]; exact hf m (by omega)
          · intro m
            by_cases hm : m = n + 1
            · subst hm; exact .inr ⟨hf _ (by omega), .inr rfl⟩
            · exact .inl (upd_ne _ _ hm)
          · simp [readBytes, h2, h0, hfl, hr]
        | some r =>
          have hbuf := hq r hr
          obtain ⟨rn, rbuf, rerr, rnext⟩ := r
          cases rerr with
          | some e =>
            refine ⟨by simp, ?_⟩
            rw [upd_upd, upd_self (hf _ (by omega))]
            refine post_clean hf (by omega) ⟨.err e, ⟨hdr, at1 stale, h1, at1_length _, ?_⟩, rfl⟩
            simp [readBytes, h2, h0, hfl, hr]
          | none =>
            refine ⟨by omega, ?_, ?_, .slice rbuf, ⟨hdr, at1 stale, h1, at1_length _, ?_⟩, ?_⟩
            · intro m hm; rw [upd_ne _ _ (by omega)]; exact hf m (by omega)
            · intro m
              by_cases hm : m = n + 1
              · subst hm; exact .inr ⟨hf _ (by omega), .inl rfl⟩
              · exact .inl (upd_ne _ _ hm)
            · simp [readBytes, h2, h0, hfl, hr]
            · simp only at hbuf
              have hl2 := congrArg List.length hbuf
              simp at hl2
              exact ⟨_, upd_same _ _ _, by simp; omega, by simp; omega, hbuf⟩

/-! ## Sessions -/

theorem agrees_mono {P P' : Nat → Bytes → Prop} (h : ∀ k b, P k b → P' k b) {o : Out (Option Nat)} {oP : Out Bytes} (ha : o.Agrees P oP) :
    o.Agrees P' oP := by
  cases o with
  | slice x => cases x <;> cases oP <;> simp_all [Out.Agrees]
  | _ => cases oP <;> simp_all [Out.Agrees]

/-- The postcondition of a session. -/
def PostS (R : Reader σ) (fuel : Nat) (cs : List Call) (w : Writer) (s : σ) (own : Tab) :
    List (Out (Option Nat)) × Writer × σ → Tab → Nat → Prop := fun o own' _ =>
  (∀ m b, own m = some b → own' m = some b) ∧
  (∀ m, own' m = own m ∨ (.slice (some m) ∈ o.1 ∨ .running ∈ o.1)) ∧
    ∃ oP, Many R fuel cs w s (oP, o.2) ∧ List.Forall₂ (Out.Agrees (PHolds own')) o.1 oP

theorem wp_session {R : Reader σ} (hl : R.Lawful) {fuel : Nat} : ∀ (cs : List Call) (w : Writer) (s : σ) (own : Tab) (n : Nat), Fresh own n →
    wp (sessionC R fuel cs w s) own n (PostS R fuel cs w s own) := by
  intro cs
  induction cs with
  | nil => intro w s own n _; exact ⟨fun _ _ h => h, fun _ => .inl rfl, _, .nil w s, .nil⟩
  | cons c cs ih =>
    intro w s own n hf
    refine wp_bind _ _ _ (wp_mono ?_ _ _ _ (wp_call hl hf c))
    rintro ⟨o, w', s'⟩ own1 n1 ⟨hn, hf1, ht, oP, hone, hag⟩
    have hkeep : ∀ m b, own m = some b → own1 m = some b := by
      intro m b hb
      rcases ht m with h | ⟨h, -⟩
      · rw [h, hb]
      · rw [hb] at h; simp at h
    by_cases hrun : o = .running
    · subst hrun
      have hrP : oP = .running := by cases oP <;> simp_all [Out.Agrees]
      subst hrP
      exact ⟨hkeep, fun m => (ht m).elim .inl fun h => .inr (.inr (by simp)), _, .stop hone, .cons trivial .nil⟩
    · have hrP : oP ≠ .running := by
        rintro rfl
        cases o with
        | slice x => cases x <;> simp_all [Out.Agrees]
        | _ => simp_all [Out.Agrees]
      have key : wp ((sessionC R fuel cs w' s').bind fun q => .ret (o :: q.1, q.2)) own1 n1 (PostS R fuel (c :: cs) w s own) := by
        refine wp_bind _ _ _ (wp_mono ?_ _ _ _ (ih w' s' own1 n1 hf1))
        rintro ⟨os, w2, s2⟩ own2 n2 ⟨hk2, ht2, osP, hm, hfa⟩
        refine ⟨fun m b hb => hk2 m b (hkeep m b hb), fun m => ?_, _, .cons hone hrP hm, .cons (agrees_mono ?_ hag) hfa⟩
        · rcases ht2 m with h | h | h
          · rcases ht m with h' | ⟨-, h' | h'⟩
            · exact .inl (h.trans h')
            · exact .inr (.inl (by simp only at h'; simp [h']))
            · exact absurd h' hrun
          · exact .inr (.inl (List.mem_cons_of_mem _ h))
          · exact .inr (.inr (List.mem_cons_of_mem _ h))
        · rintro k b ⟨x, hx, hrest⟩
          exact ⟨x, hk2 k x hx, hrest⟩
      cases o with
      | running => exact absurd rfl hrun
      | _ => exact key

/-! ## C100 -/

/-- C100: goroutines that use xbinary at the same time do not disturb each other. Goroutine `i` makes the calls `cs` one
after the other on a writer and a reader of its own (and then returns `f` of the results); the other goroutines run
arbitrary programs that use the pools – through xbinary or directly – in any interleaving, also while the reader or the
writer of goroutine `i` is at work. Goroutine `i` never panics. When it has finished, its results, the bytes in its writer
and what its reader has left are those of the same calls made alone; every slice that a `ReadBytes` returned still holds
exactly the bytes read, however many calls came after; and it holds no buffers but these slices. -/
theorem C100_session {R : Reader σ} (hl : R.Lawful) {fuel : Nat} {cs : List Call} {w : Writer} {s : σ}
    {f : List (Out (Option Nat)) × Writer × σ → α} {prog : Nat → Code α} {i : Nat}
    (hp : prog i = (sessionC R fuel cs w s).bind fun r => .ret (f r)) {y : Sys α} (hy : Sys.Reach prog y) :
    (y.th i).code ≠ .bad ∧ ∀ a, (y.th i).code = .ret a → ∃ outs w' s' vals, a = f (outs, w', s') ∧
      Many R fuel cs w s (vals, w', s') ∧ List.Forall₂ (Out.Agrees (Holds y i)) outs vals ∧
      (.running ∉ outs → ∀ h, (y.th i).own h ≠ none → .slice (some h) ∈ outs) := by
  obtain ⟨p, h1, h2, h3⟩ := C99_private hy i
  have hw : wp (prog i) (fun _ => none) 0 (fun a own n => ∃ r, a = f r ∧ PostS R fuel cs w s (fun _ => none) r own n) := by
    rw [hp]
    exact wp_bind _ _ _ (wp_mono (fun r own n h => ⟨r, rfl, h⟩) _ _ _ (wp_session hl cs w s _ 0 (fun _ _ => rfl)))
  have hw' := wp_reach h1 hw
  rw [h2] at hw'
  refine ⟨fun hb => by rw [hb] at hw'; exact hw', fun a ha => ?_⟩
  rw [ha] at hw'
  obtain ⟨⟨outs, w', s'⟩, rfl, -, ht, vals, hm, hfa⟩ := hw'
  refine ⟨outs, w', s', vals, rfl, hm, ?_, ?_⟩
  · refine hfa.imp fun o oP hag => agrees_mono ?_ hag
    rintro k b ⟨x, hx, e1, e2, e3⟩
    have hs := h3 k
    cases ho : (y.th i).own k with
    | none => rw [ho, hx] at hs; exact absurd hs (by simp [Same])
    | some sl =>
      rw [ho, hx] at hs
      obtain ⟨g1, g2, g3⟩ := hs
      refine ⟨sl, ho, by omega, by omega, ?_⟩
      conv_lhs => rw [← e3]
      unfold PBuf.list
      rw [e1]
      refine List.map_congr_left fun j hj => g3 j ?_
      simp at hj; omega
  · intro hr h hh
    rcases ht h with h' | h' | h'
    · have hs := h3 h
      rw [h'] at hs
      cases ho : (y.th i).own h with
      | none => exact absurd ho hh
      | some sl => rw [ho] at hs; exact absurd hs (by simp [Same])
    · exact h'
    · exact absurd h' hr

/-- Two goroutines read byte strings and numbers, and write; a third one takes and frees buffers of the same sizes. -/
def demoPool : Nat → Code (List (Out (Option Nat)) × Writer × Bytes)
  | 0 => (sessionC memReader 2 [.rbytes, .r16] (memWriter []) [0, 2, 7, 8, 0, 9]).bind fun r => .ret r
  | 1 => (sessionC memReader 2 [.wbytes [3], .w16 5] (memWriter []) []).bind fun r => .ret r
  | _ => .malloc 2 2 fun h => .store h 0 9 <| .store h 1 9 <| .free h (.ret ([], memWriter [], []))

/-- All three at work at the same time, with buffers passed on from one to the other. -/
theorem demoPool_run : ∃ y, Sys.Reach demoPool y ∧ (y.th 0).code = .ret ([.slice (some 1), .num 9], memWriter [], []) ∧
    (∃ w, (y.th 1).code = .ret ([.ok, .ok], w, []) ∧ w.out = [0, 1, 3, 0, 5]) ∧
    y.heap.next = 3 :=
  ⟨_, Sys.play_reach ([(2, none), (2, none), (2, none), (2, none)] ++ (List.replicate 9 [(0, some 0), (1, some 0)]).flatten ++
    List.replicate 12 (0, some 0) ++ List.replicate 7 (1, some 0)) .start rfl, rfl, ⟨_, rfl, rfl⟩, rfl⟩

/-! ## Values read back while others are at work -/

/-- The call that reads a value of the type of `v`, its result, and the bytes of `v`. -/
def Val.call : Val → Call
  | .u16 _ => .r16
  | .u32 _ => .r32
  | .bool _ => .rbool
  | .bytes _ => .rbytes

/-- What a read of a value returns (xbinary.go:32-148). -/
def Val.out : Val → Out Bytes
  | .u16 i => .num i
  | .u32 i => .num i
  | .bool b => .flag b
  | .bytes b => .slice b

/-- The bytes that a write of a value produces (xbinary.go:32-148). -/
def Val.enc : Val → Bytes
  | .u16 i => encode16 i
  | .u32 i => encode32 i
  | .bool b => [if b then 1 else 0]
  | .bytes b => frame b

theorem writeAll_out : ∀ (vs : List Val) (w : Writer), w.fail = (fun _ => none) → (writeAll w vs).1.out = w.out ++ vs.flatMap Val.enc := by
  intro vs
  induction vs with
  | nil => intro w _; simp [writeAll]
  | cons v vs ih =>
    intro w hw
    have h : ∃ w', v.write w = (w', none) ∧ w'.out = w.out ++ v.enc ∧ w'.fail = fun _ => none := by
      cases v <;> simp [Val.write, writeUint16, writeUint32, writeBool, writeBytes, Writer.write, hw, Val.enc, frame]
    obtain ⟨w', h1, h2, h3⟩ := h
    simp only [writeAll, h1, ih w' h3, h2, List.flatMap_cons, List.append_assoc]

theorem one_read {fuel : Nat} (hf : 2 ≤ fuel) {v : Val} (hv : v.Ok) {w : Writer} {t : Bytes} {o : Out Bytes × Writer × Bytes}
    (h : One memReader fuel w (v.enc ++ t) v.call o) : o = (v.out, w, t) := by
  obtain ⟨hdr, stale, hh, hst, h⟩ := h
  cases v with
  | u16 i =>
    obtain ⟨s', h1, h2⟩ := (C37_roundtrip memReader_lawful memReader_eager (encode16 i ++ t) t).1 i (stale 2) hv (hst 2) rfl
    obtain ⟨r, h3, rfl⟩ := h
    rw [Val.enc, h1] at h3
    cases h3
    rw [show s' = t from h2]; rfl
  | u32 i =>
    obtain ⟨s', h1, h2⟩ := (C37_roundtrip memReader_lawful memReader_eager (encode32 i ++ t) t).2.1 i (stale 4) hv (hst 4) rfl
    obtain ⟨r, h3, rfl⟩ := h
    rw [Val.enc, h1] at h3
    cases h3
    rw [show s' = t from h2]; rfl
  | bool b =>
    obtain ⟨s', h1, h2⟩ := (C37_roundtrip memReader_lawful memReader_eager ([if b then 1 else 0] ++ t) t).2.2 b (stale 1) (hst 1) rfl
    obtain ⟨r, h3, rfl⟩ := h
    rw [Val.enc, h1] at h3
    cases h3
    rw [show s' = t from h2]; rfl
  | bytes b =>
    obtain ⟨s', h1, h2⟩ := C38_roundtrip_partial memReader_lawful memReader_eager (frame b ++ t) b t hv rfl hdr hh stale hst fuel hf
    simp only [Val.call, Val.enc, h1] at h
    rw [h, show s' = t from h2]; rfl

theorem many_read {fuel : Nat} (hf : 2 ≤ fuel) : ∀ (vs : List Val) (_ : ∀ v ∈ vs, v.Ok) (w : Writer) (t : Bytes)
    (o : List (Out Bytes) × Writer × Bytes), Many memReader fuel (vs.map Val.call) w (vs.flatMap Val.enc ++ t) o →
      o = (vs.map Val.out, w, t) := by
  intro vs
  induction vs with
  | nil => intro _ w t o h; cases h; rfl
  | cons v vs ih =>
    intro hv w t o h
    rw [List.flatMap_cons, List.append_assoc, List.map_cons] at h
    cases h with
    | stop h1 =>
      have := one_read hf (hv v (by simp)) h1
      cases v <;> simp [Val.out] at this
    | cons h1 _ h2 =>
      have := one_read hf (hv v (by simp)) h1
      simp only [Prod.mk.injEq] at this
      obtain ⟨rfl, rfl, rfl⟩ := this
      have := ih (fun x hx => hv x (by simp [hx])) _ _ _ h2
      rw [this]; rfl

/-- C100, round trip: a goroutine that reads back what was written for the values `vs` gets exactly these values, and the
slices hold their bytes, whatever the other goroutines do with the pools in the meantime. -/
theorem C100_roundtrip {fuel : Nat} (hf : 2 ≤ fuel) {vs : List Val} (hv : ∀ v ∈ vs, v.Ok) {w : Writer} {t : Bytes}
    {f : List (Out (Option Nat)) × Writer × Bytes → α} {prog : Nat → Code α} {i : Nat}
    (hp : prog i = (sessionC memReader fuel (vs.map Val.call) w ((writeAll (memWriter []) vs).1.out ++ t)).bind fun r => .ret (f r))
    {y : Sys α} (hy : Sys.Reach prog y) {a : α} (ha : (y.th i).code = .ret a) :
    ∃ outs, a = f (outs, w, t) ∧ List.Forall₂ (Out.Agrees (Holds y i)) outs (vs.map Val.out) := by
  obtain ⟨outs, w', s', vals, rfl, hm, hfa, -⟩ := (C100_session memReader_lawful hp hy).2 a ha
  rw [writeAll_out _ _ rfl] at hm
  have := many_read hf vs hv w t _ hm
  simp only [Prod.mk.injEq] at this
  obtain ⟨rfl, rfl, rfl⟩ := this
  exact ⟨outs, rfl, hfa⟩

/-- Goroutine 0 of `demoPool` is of this form; the slice that it got holds the bytes read. -/
example : ∃ y, Sys.Reach demoPool y ∧ Holds y 0 1 [7, 8] := by
  obtain ⟨y, hy, h0, -, -⟩ := demoPool_run
  have hp : demoPool 0 = (sessionC memReader 2 ([Val.bytes [7, 8], .u16 9].map Val.call) (memWriter [])
    ((writeAll (memWriter []) [.bytes [7, 8], .u16 9]).1.out ++ [])).bind fun r => .ret r := rfl
  obtain ⟨outs, e, hfa⟩ := C100_roundtrip (f := fun r => r) (Nat.le_refl 2) (by simp [Val.Ok]) hp hy h0
  simp only [Prod.mk.injEq] at e
  rw [← e.1] at hfa
  cases hfa with
  | cons h _ => exact ⟨y, hy, h⟩

end Verif.XBinary

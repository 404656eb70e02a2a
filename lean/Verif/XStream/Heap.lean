import Verif.XStream.Model
import Verif.XStream.Spec
import Verif.XStream.Lists
import Verif.XError.Heap
/-!
# Slices and maps that a stream hands out, with the arrays behind them (C127)

`Model.lean` takes the slices sent by Split, Merge and Group to be lists. Here they have arrays: the stage appends to them, the consumers change
the elements of slices they have received, and Of reads the slice it was called with while its caller may change it. Simplification: what the
consumers do with a slice is described by its effect, changes of single elements of its array (also beyond the length, as `append` does).
-/
namespace Verif.XStream.Heap
open Verif.Go Verif.XStream Verif.XError.Heap

variable {A K : Type}

/-! ## Model -/

/-- The operations that send slices. -/
inductive Kind (A K : Type) where
  | split (n : Nat)
  | merge
  | group (f : A → K)

/-- The slice to which an element is appended: `chunk` (xstream.go:192), `items` (xstream.go:486) or `groups[key]` (xstream.go:468). -/
def Kind.key : Kind A K → A → Option K
  | .group f, x => some (f x)
  | _, _ => none

/-- The memory of a program with a stage that sends slices (`Split` xstream.go:193-206, `Merge` 487-495, `Group` 466-482). -/
structure St (A K : Type) where
  /-- the elements of the arrays -/
  mem : Nat → Nat → Option A
  /-- arrays from this one on are not in use -/
  next : Nat
  /-- the slices of the stage that have not been sent -/
  own : Option K → Slice
  /-- the stage has seen the end of its input -/
  ended : Bool
  /-- the elements received by the stage -/
  ins : List A
  /-- the slices sent; every consumer (there are several after Copy) has received them -/
  sent : List Slice
  /-- their elements at the moment they were sent -/
  vals : List (List A)
  /-- arrays allocated by the consumers -/
  mine : List Nat

/-- The nil slice. -/
def nil : Slice := ⟨0, 0, 0⟩

/-- Nothing has been received. -/
def St.init : St A K := ⟨fun _ _ => none, 0, fun _ => nil, false, [], [], [], []⟩

/-- The elements of a slice. -/
def St.read (s : St A K) (v : Slice) : List A := (List.range v.len).filterMap (s.mem v.arr)

/-- Change of the slice for a key. -/
def put [DecidableEq K] (own : Option K → Slice) (k : Option K) (v : Slice) : Option K → Slice := fun j => if j = k then v else own j

/-- `own[k] = append(own[k], x)`: if the array is full, `grow` gives the capacity of the new one (anything that is large enough). -/
def St.append [DecidableEq K] (s : St A K) (k : Option K) (x : A) (grow : Nat) : St A K :=
  let v := s.own k
  if v.len < v.cap then
    { s with mem := set s.mem v.arr (set (s.mem v.arr) v.len (some x)), own := put s.own k { v with len := v.len + 1 } }
  else
    { s with
      mem := set s.mem s.next (fun i => if i < v.len then s.mem v.arr i else if i = v.len then some x else none)
      next := s.next + 1
      own := put s.own k ⟨s.next, v.len + 1, max grow (v.len + 1)⟩ }

/-- The stage sends the slice: xstream.go:195-197, 200-202 (Split: it has `n` elements, or the input has ended and it is not nil), 491 (Merge, once),
474 (Group: each key of the map, in any order). -/
def Kind.Sends (κ : Kind A K) (s : St A K) (k : Option K) : Prop :=
  match κ with
  | .split n => k = none ∧ ((s.own none).len = n ∨ s.ended = true ∧ (s.own none).cap ≠ 0)
  | .merge => k = none ∧ s.ended = true ∧ s.sent = []
  | .group _ => k ≠ none ∧ s.ended = true ∧ (s.own k).cap ≠ 0

/-- The stage is at its receive: xstream.go:193, 466, 487. -/
def Kind.Takes (κ : Kind A K) (s : St A K) : Prop := s.ended = false ∧ ∀ n, κ = .split n → (s.own none).len ≠ n

/-- What happens: the stage receives an element, sees the end, sends a slice; a consumer changes an element of a slice or allocates. -/
inductive Ev (A K : Type) where
  | recv (x : A) (grow : Nat)
  | eof
  | send (k : Option K)
  /-- consumer `c` changes an element -/
  | poke (c a i : Nat) (x : A)
  /-- a consumer allocates an array -/
  | alloc

/-- xstream.go:186-207 `Split`, 463-480 `Group`, 483-496 `Merge`, and consumers. `chunk = nil` (xstream.go:197) is the assignment in `send`; Merge and Group
do not use a slice again after having sent it. -/
inductive Step [DecidableEq K] (κ : Kind A K) : St A K → Ev A K → St A K → Prop where
  | recv (s : St A K) (x : A) (grow : Nat) : κ.Takes s → Step κ s (.recv x grow) { s.append (κ.key x) x grow with ins := s.ins ++ [x] }
  | eof (s : St A K) : κ.Takes s → Step κ s .eof { s with ended := true }
  | send (s : St A K) (k : Option K) : κ.Sends s k →
      Step κ s (.send k) { s with own := put s.own k nil, sent := s.sent ++ [s.own k], vals := s.vals ++ [s.read (s.own k)] }
  | poke (s : St A K) (c a i : Nat) (x : A) : a ∈ s.mine ∨ (∃ v ∈ s.sent, v.cap ≠ 0 ∧ v.arr = a) →
      Step κ s (.poke c a i x) { s with mem := set s.mem a (set (s.mem a) i (some x)) }
  | alloc (s : St A K) : Step κ s .alloc { s with next := s.next + 1, mine := s.next :: s.mine }

/-- Several steps, with what happens in them. -/
inductive Run [DecidableEq K] (κ : Kind A K) : St A K → List (Ev A K) → St A K → Prop where
  | nil (s : St A K) : Run κ s [] s
  | snoc {s s' s'' : St A K} {l : List (Ev A K)} {e : Ev A K} : Run κ s l s' → Step κ s' e s'' → Run κ s (l ++ [e]) s''

/-- The stage has nothing more to do. -/
def Finished (κ : Kind A K) (s : St A K) : Prop := s.ended = true ∧ ∀ k, ¬ κ.Sends s k

/-! ## Proofs -/

variable [DecidableEq K]

theorem put_self (own : Option K → Slice) (k : Option K) (v : Slice) : put own k v k = v := by simp [put]
theorem put_ne (own : Option K → Slice) {k j : Option K} (v : Slice) (h : j ≠ k) : put own k v j = own j := by simp [put, h]

omit [DecidableEq K] in
theorem read_congr {s s' : St A K} {v : Slice} (h : ∀ i, i < v.len → s'.mem v.arr i = s.mem v.arr i) : s'.read v = s.read v :=
  filterMap_congr' _ h

/-- Nobody else has the array of a slice of the stage, and the slices sent have different arrays. -/
structure Apart (s : St A K) : Prop where
  cap : ∀ k, (s.own k).len ≤ (s.own k).cap ∧ ((s.own k).cap ≠ 0 → (s.own k).arr < s.next)
  own : ∀ k j, k ≠ j → (s.own k).cap ≠ 0 → (s.own j).cap ≠ 0 → (s.own k).arr ≠ (s.own j).arr
  sent : ∀ v ∈ s.sent, v.len ≤ v.cap ∧ (v.cap ≠ 0 → v.arr < s.next ∧ ∀ k, (s.own k).cap ≠ 0 → (s.own k).arr ≠ v.arr)
  pair : s.sent.Pairwise fun v w => v.cap ≠ 0 → w.cap ≠ 0 → v.arr ≠ w.arr
  mine : ∀ a ∈ s.mine, a < s.next ∧ (∀ k, (s.own k).cap ≠ 0 → (s.own k).arr ≠ a) ∧ ∀ v ∈ s.sent, v.cap ≠ 0 → v.arr ≠ a

omit [DecidableEq K] in
theorem apart_init : Apart (St.init : St A K) where
  cap := by intro k; simp [St.init, nil]
  own := by intro k j _ h; simp [St.init, nil] at h
  sent := by intro v hv; simp [St.init] at hv
  pair := by simp [St.init]
  mine := by intro a ha; simp [St.init] at ha

theorem append_ended (s : St A K) (k : Option K) (x : A) (grow : Nat) : (s.append k x grow).ended = s.ended ∧ (s.append k x grow).sent = s.sent ∧
    (s.append k x grow).vals = s.vals ∧ (s.append k x grow).mine = s.mine := by
  unfold St.append; simp only; split <;> exact ⟨rfl, rfl, rfl, rfl⟩

theorem append_own (s : St A K) (k j : Option K) (x : A) (grow : Nat) (h : j ≠ k) : (s.append k x grow).own j = s.own j := by
  unfold St.append; simp only; split <;> exact put_ne _ _ h

theorem append_slot (s : St A K) (k : Option K) (x : A) (grow : Nat) :
    ((s.append k x grow).own k).len = (s.own k).len + 1 ∧ ((s.append k x grow).own k).len ≤ ((s.append k x grow).own k).cap ∧
    ((s.append k x grow).own k).cap ≠ 0 ∧ s.next ≤ (s.append k x grow).next ∧
    (((s.own k).cap ≠ 0 ∧ ((s.append k x grow).own k).arr = (s.own k).arr ∧ (s.append k x grow).next = s.next) ∨
      (((s.append k x grow).own k).arr = s.next ∧ (s.append k x grow).next = s.next + 1)) := by
  unfold St.append; simp only; split
  · simp only [put_self]; exact ⟨trivial, by omega, by omega, Nat.le_refl _, .inl ⟨by omega, trivial, trivial⟩⟩
  · simp only [put_self]; exact ⟨trivial, by omega, by omega, by omega, .inr ⟨trivial, trivial⟩⟩

theorem append_read_self (s : St A K) (k : Option K) (x : A) (grow : Nat) :
    (s.append k x grow).read ((s.append k x grow).own k) = s.read (s.own k) ++ [x] := by
  unfold St.append; simp only; split
  · simp only [put_self, St.read, List.range_succ, List.filterMap_append, set_self, List.filterMap_cons, List.filterMap_nil]
    rw [filterMap_congr' (g := s.mem (s.own k).arr) _ fun i hi => set_ne _ _ (by omega)]
  · simp only [put_self, St.read, List.range_succ, List.filterMap_append, set_self, List.filterMap_cons, List.filterMap_nil, Nat.lt_irrefl, if_false, if_true]
    rw [filterMap_congr' (g := s.mem (s.own k).arr) _ fun i hi => by simp [hi]]

theorem append_read_other (s : St A K) (k : Option K) (x : A) (grow : Nat) {v : Slice} (hv : v.len ≤ v.cap) (hn : v.cap ≠ 0 → v.arr < s.next)
    (ho : v.cap ≠ 0 → (s.own k).cap ≠ 0 → (s.own k).arr ≠ v.arr) : (s.append k x grow).read v = s.read v := by
  refine read_congr fun i hi => ?_
  have hc : v.cap ≠ 0 := by omega
  have := hn hc
  unfold St.append; simp only; split
  · have := ho hc (by omega)
    simp only [set_ne _ _ (Ne.symm this)]
  · simp only [set_ne _ _ (show v.arr ≠ s.next by omega)]

theorem apart_append {s : St A K} (h : Apart s) (k : Option K) (x : A) (grow : Nat) : Apart (s.append k x grow) := by
  obtain ⟨_, e2, _, e4⟩ := append_ended s k x grow
  obtain ⟨l1, l2, l3, l4, l5⟩ := append_slot s k x grow
  have fresh : ∀ a, a < s.next → ((s.own k).cap ≠ 0 → (s.own k).arr ≠ a) → ((s.append k x grow).own k).arr ≠ a := by
    intro a ha hne
    rcases l5 with ⟨c, e, _⟩ | ⟨e, _⟩
    · rw [e]; exact hne c
    · omega
  have hslot : ((s.append k x grow).own k).arr < (s.append k x grow).next := by
    rcases l5 with ⟨c, e, e'⟩ | ⟨e, e'⟩
    · rw [e, e']; exact (h.cap k).2 c
    · omega
  refine ⟨fun j => ?_, fun j i hij hj hi => ?_, fun v hv => ?_, by rw [e2]; exact h.pair, fun a ha => ?_⟩
  · by_cases e : j = k
    · subst e; exact ⟨l2, fun _ => hslot⟩
    · rw [append_own _ _ _ _ _ e]; exact ⟨(h.cap j).1, fun hc => by have := (h.cap j).2 hc; omega⟩
  · by_cases e : j = k
    · subst e
      have e' : i ≠ j := Ne.symm hij
      rw [append_own _ _ _ _ _ e'] at hi ⊢
      exact fresh _ ((h.cap i).2 hi) fun hc => h.own j i hij hc hi
    · rw [append_own _ _ _ _ _ e] at hj ⊢
      by_cases e' : i = k
      · subst e'
        exact Ne.symm (fresh _ ((h.cap j).2 hj) fun hc => h.own i j (Ne.symm hij) hc hj)
      · rw [append_own _ _ _ _ _ e'] at hi ⊢
        exact h.own j i hij hj hi
  · rw [e2] at hv
    obtain ⟨p1, p2⟩ := h.sent v hv
    refine ⟨p1, fun hc => ⟨by have := (p2 hc).1; omega, fun j hj => ?_⟩⟩
    by_cases e : j = k
    · subst e; exact fresh _ (p2 hc).1 fun hc' => (p2 hc).2 j hc'
    · rw [append_own _ _ _ _ _ e] at hj ⊢; exact (p2 hc).2 j hj
  · rw [e4] at ha
    obtain ⟨p1, p2, p3⟩ := h.mine a ha
    refine ⟨by omega, fun j hj => ?_, by rw [e2]; exact p3⟩
    by_cases e : j = k
    · subst e; exact fresh _ p1 (p2 j)
    · rw [append_own _ _ _ _ _ e] at hj ⊢; exact p2 j hj

theorem apart_step {κ : Kind A K} {s s' : St A K} {e : Ev A K} (h : Apart s) (hs : Step κ s e s') : Apart s' := by
  cases hs with
  | recv x grow _ =>
    have := apart_append h (κ.key x) x grow
    exact ⟨this.cap, this.own, this.sent, this.pair, this.mine⟩
  | eof _ => exact ⟨h.cap, h.own, h.sent, h.pair, h.mine⟩
  | send k _ =>
    have hput : ∀ j, (put s.own k nil j).cap ≠ 0 → j ≠ k ∧ put s.own k nil j = s.own j := by
      intro j hj
      by_cases e : j = k
      · subst e; simp [put_self, nil] at hj
      · exact ⟨e, put_ne _ _ e⟩
    refine ⟨fun j => ?_, fun j i hij hj hi => ?_, fun v hv => ?_, ?_, fun a ha => ?_⟩
    · show (put s.own k nil j).len ≤ (put s.own k nil j).cap ∧ _
      by_cases e : j = k
      · subst e; simp [put_self, nil]
      · simp only [put_ne _ _ e]; exact h.cap j
    · simp only at hj hi ⊢
      have ej := (hput j hj).2
      have ei := (hput i hi).2
      rw [ej] at hj ⊢
      rw [ei] at hi ⊢
      exact h.own j i hij hj hi
    · rcases List.mem_append.mp hv with hv | hv
      · refine ⟨(h.sent v hv).1, fun hc => ⟨((h.sent v hv).2 hc).1, fun j hj => ?_⟩⟩
        simp only at hj ⊢
        have ej := (hput j hj).2
        rw [ej] at hj ⊢
        exact ((h.sent v hv).2 hc).2 j hj
      · simp only [List.mem_singleton] at hv; subst hv
        refine ⟨(h.cap k).1, fun hc => ⟨(h.cap k).2 hc, fun j hj => ?_⟩⟩
        simp only at hj ⊢
        have hjk := (hput j hj).1
        have ej := (hput j hj).2
        rw [ej] at hj ⊢
        exact h.own j k hjk hj hc
    · show (s.sent ++ [s.own k]).Pairwise _
      rw [List.pairwise_append]
      refine ⟨h.pair, by simp, fun v hv w hw hc hc' => ?_⟩
      simp only [List.mem_singleton] at hw; subst hw
      exact Ne.symm (((h.sent v hv).2 hc).2 k hc')
    · obtain ⟨p1, p2, p3⟩ := h.mine a ha
      refine ⟨p1, fun j hj => ?_, fun v hv => ?_⟩
      · simp only at hj ⊢
        have ej := (hput j hj).2
        rw [ej] at hj ⊢
        exact p2 j hj
      · rcases List.mem_append.mp hv with hv | hv
        · exact p3 v hv
        · simp only [List.mem_singleton] at hv; subst hv; exact p2 k
  | poke c a i x _ => exact ⟨h.cap, h.own, h.sent, h.pair, h.mine⟩
  | alloc =>
    refine ⟨fun j => ⟨(h.cap j).1, fun hc => Nat.lt_succ_of_lt ((h.cap j).2 hc)⟩, h.own,
      fun v hv => ⟨(h.sent v hv).1, fun hc => ⟨Nat.lt_succ_of_lt ((h.sent v hv).2 hc).1, ((h.sent v hv).2 hc).2⟩⟩, h.pair, fun a ha => ?_⟩
    rcases List.mem_cons.mp ha with rfl | ha
    · exact ⟨Nat.lt_succ_self _, fun j hj => Nat.ne_of_lt ((h.cap j).2 hj), fun v hv hc => Nat.ne_of_lt ((h.sent v hv).2 hc).1⟩
    · obtain ⟨p1, p2, p3⟩ := h.mine a ha
      exact ⟨Nat.lt_succ_of_lt p1, p2, p3⟩

theorem apart_run {κ : Kind A K} {s s' : St A K} {l : List (Ev A K)} (h : Apart s) (hr : Run κ s l s') : Apart s' := by
  induction hr with
  | nil => exact h
  | snoc _ hs ih => exact apart_step ih hs

/-- What a step does to the elements of the slices of the stage. -/
theorem own_step {κ : Kind A K} {s s' : St A K} {e : Ev A K} (h : Apart s) (hs : Step κ s e s') (j : Option K) :
    s'.read (s'.own j) = match e with
      | .recv x _ => if j = κ.key x then s.read (s.own j) ++ [x] else s.read (s.own j)
      | .send k => if j = k then [] else s.read (s.own j)
      | _ => s.read (s.own j) := by
  cases hs with
  | recv x grow _ =>
    show (s.append (κ.key x) x grow).read ((s.append (κ.key x) x grow).own j) = if j = κ.key x then s.read (s.own j) ++ [x] else s.read (s.own j)
    by_cases e : j = κ.key x
    · rw [if_pos e, ← e]
      exact append_read_self s j x grow
    · rw [if_neg e, append_own _ _ _ _ _ e]
      exact append_read_other s _ x grow (h.cap j).1 (h.cap j).2 fun hc hc' => h.own _ j (Ne.symm e) hc' hc
  | eof _ => rfl
  | send k _ =>
    simp only
    by_cases e : j = k
    · rw [if_pos e, e, put_self]; rfl
    · rw [if_neg e, put_ne _ _ e]; rfl
  | poke c a i x ha =>
    refine read_congr fun p hp => ?_
    have hc : (s.own j).cap ≠ 0 := by have := (h.cap j).1; simp only at hp; omega
    have : (s.own j).arr ≠ a := by
      rcases ha with ha | ⟨v, hv, hvc, e⟩
      · exact (h.mine a ha).2.1 j hc
      · rw [← e]; exact ((h.sent v hv).2 hvc).2 j hc
    simp only [set_ne _ _ this]
  | alloc => rfl

theorem own_len {κ : Kind A K} {s s' : St A K} {e : Ev A K} (hs : Step κ s e s') (j : Option K) :
    (s'.own j).len = match e with
      | .recv x _ => if j = κ.key x then (s.own j).len + 1 else (s.own j).len
      | .send k => if j = k then 0 else (s.own j).len
      | _ => (s.own j).len := by
  cases hs with
  | recv x grow _ =>
    show ((s.append (κ.key x) x grow).own j).len = if j = κ.key x then (s.own j).len + 1 else (s.own j).len
    by_cases e : j = κ.key x
    · rw [if_pos e, ← e]; exact (append_slot s j x grow).1
    · rw [if_neg e, append_own _ _ _ _ _ e]
  | send k _ =>
    simp only
    by_cases e : j = k
    · rw [if_pos e, e, put_self]; rfl
    · rw [if_neg e, put_ne _ _ e]
  | _ => rfl

/-- The elements of a slice that was sent change only by changes of its array. -/
theorem sent_step {κ : Kind A K} {s s' : St A K} {e : Ev A K} (h : Apart s) (hs : Step κ s e s') {v : Slice} (hv : v ∈ s.sent)
    (hp : ∀ c i x, e ≠ .poke c v.arr i x) : s'.read v = s.read v ∧ v ∈ s'.sent := by
  cases hs with
  | recv x grow _ =>
    have := append_read_other s (κ.key x) x grow (h.sent v hv).1 (fun hc => ((h.sent v hv).2 hc).1)
      fun hc hc' => ((h.sent v hv).2 hc).2 _ hc'
    refine ⟨this, ?_⟩
    show v ∈ (s.append (κ.key x) x grow).sent
    rw [(append_ended s (κ.key x) x grow).2.1]; exact hv
  | eof _ => exact ⟨rfl, hv⟩
  | send k _ => exact ⟨rfl, List.mem_append.mpr (.inl hv)⟩
  | poke c a i x _ =>
    refine ⟨read_congr fun p _ => ?_, hv⟩
    have : v.arr ≠ a := fun e => hp c i x (by rw [e])
    simp only [set_ne _ _ this]
  | alloc => exact ⟨rfl, hv⟩

/-! ## Theorems -/

variable {κ : Kind A K} {s s' : St A K} {l l' : List (Ev A K)}

/-- C127: two slices sent by an operation never share an array: changes of one, also by `append`, do not change the other. -/
theorem C127_apart (h : Run κ St.init l s) {i j : Nat} (hij : i < j) {v w : Slice} (hv : s.sent[i]? = some v) (hw : s.sent[j]? = some w)
    (hc : v.cap ≠ 0) (hc' : w.cap ≠ 0) : v.arr ≠ w.arr := by
  have hp := (apart_run apart_init h).pair
  obtain ⟨hi, rfl⟩ := List.getElem?_eq_some_iff.mp hv
  obtain ⟨hj, rfl⟩ := List.getElem?_eq_some_iff.mp hw
  exact List.pairwise_iff_getElem.mp hp i j hi hj hij hc hc'

/-- C127: from when it has been received on, the elements of a slice change only if somebody who has received it changes them. -/
theorem C127_kept (h : Run κ St.init l s) {v : Slice} (hv : v ∈ s.sent) (hr : Run κ s l' s') (hp : ∀ c i x, Ev.poke c v.arr i x ∉ l') :
    s'.read v = s.read v := by
  have ha := apart_run apart_init h
  suffices s'.read v = s.read v ∧ v ∈ s'.sent from this.1
  induction hr with
  | nil => exact ⟨rfl, hv⟩
  | snoc hr hs ih =>
    obtain ⟨e, hv'⟩ := ih (fun c i x hm => hp c i x (List.mem_append.mpr (.inl hm)))
    obtain ⟨e', hv''⟩ := sent_step (apart_run ha hr) hs hv' fun c i x he => hp c i x (by rw [he]; simp)
    exact ⟨e'.trans e, hv''⟩

/-- C127: as long as no consumer changes it, a slice has the elements it was sent with. -/
theorem C127_value (h : Run κ St.init l s) {i : Nat} {v : Slice} (hv : s.sent[i]? = some v) (hp : ∀ c j x, Ev.poke c v.arr j x ∉ l) :
    s.vals[i]? = some (s.read v) := by
  suffices s.vals.length = s.sent.length ∧ (∀ (i : Nat) (v : Slice), s.sent[i]? = some v → (∀ c j x, Ev.poke c v.arr j x ∉ l) → s.vals[i]? = some (s.read v)) from
    this.2 i v hv hp
  clear hv hp
  induction h with
  | nil => simp [St.init]
  | snoc hr hs ih =>
    obtain ⟨ihl, ihv⟩ := ih
    have ha := apart_run apart_init hr
    rename_i s1 s2 l1 e
    have old : ∀ (i : Nat) (v : Slice), s1.sent[i]? = some v → (∀ c j x, Ev.poke c v.arr j x ∉ l1 ++ [e]) → s1.vals[i]? = some (s2.read v) := by
      intro i v hv hp
      rw [(sent_step ha hs (List.mem_of_getElem? hv) fun c i x he => hp c i x (by rw [he]; simp)).1]
      exact ihv i v hv fun c j x hm => hp c j x (List.mem_append.mpr (.inl hm))
    cases hs with
    | recv x grow ht =>
      have hsv := append_ended s1 (κ.key x) x grow
      refine ⟨?_, fun i v hv hp => ?_⟩
      · show (s1.append (κ.key x) x grow).vals.length = (s1.append (κ.key x) x grow).sent.length
        rw [hsv.2.1, hsv.2.2.1]; exact ihl
      · replace hv : (s1.append (κ.key x) x grow).sent[i]? = some v := hv
        rw [hsv.2.1] at hv
        show (s1.append (κ.key x) x grow).vals[i]? = _
        rw [hsv.2.2.1]; exact old i v hv hp
    | eof => exact ⟨ihl, old⟩
    | poke => exact ⟨ihl, old⟩
    | alloc => exact ⟨ihl, old⟩
    | send k _ =>
      refine ⟨by simp [ihl], fun i v hv hp => ?_⟩
      simp only at hv ⊢
      by_cases hi : i < s1.sent.length
      · rw [List.getElem?_append_left hi] at hv
        rw [List.getElem?_append_left (by omega)]
        exact old i v hv hp
      · have := (List.getElem?_eq_some_iff.mp hv).1
        have hi' : i = s1.sent.length := by simp at this; omega
        subst hi'
        rw [List.getElem?_append_right (Nat.le_refl _)] at hv
        simp at hv; subst hv
        rw [List.getElem?_append_right (by omega), ihl]
        simp; rfl

theorem vals_length (h : Run κ St.init l s) : s.vals.length = s.sent.length := by
  induction h with
  | nil => rfl
  | snoc hr hs ih =>
    cases hs with
    | recv x grow ht =>
      have hsv := append_ended (by assumption) (κ.key x) x grow
      simp only
      rw [hsv.2.1, hsv.2.2.1]; exact ih
    | send k _ => simp [ih]
    | _ => exact ih

theorem own_full (h : Run κ St.init l s) (j : Option K) : (s.read (s.own j)).length = (s.own j).len ∧ ((s.own j).cap ≠ 0 → 0 < (s.own j).len) := by
  induction h with
  | nil => simp [St.init, St.read, nil]
  | snoc hr hs ih =>
    rename_i s1 s2 l1 e
    have h1 := own_step (apart_run apart_init hr) hs j
    have h2 := own_len hs j
    refine ⟨?_, ?_⟩
    · rw [h1, h2]
      cases e with
      | recv x g => simp only; split <;> simp [ih.1]
      | send k => simp only; split <;> simp [ih.1]
      | _ => exact ih.1
    · intro hc
      cases hs with
      | recv x grow _ =>
        by_cases e : j = κ.key x
        · subst e
          have := (append_slot s1 (κ.key x) x grow).1
          simp only at this ⊢; omega
        · simp only [append_own _ _ _ _ _ e] at hc ⊢; exact ih.2 hc
      | send k _ =>
        by_cases e : j = k
        · subst e; simp [put_self, nil] at hc
        · simp only [put_ne _ _ e] at hc ⊢; exact ih.2 hc
      | _ => exact ih.2 hc

theorem split_inv {n : Nat} (hn : 1 ≤ n) (h : Run (K := K) (.split n) St.init l s) :
    chunks n s.ins = s.vals ++ chunks n (s.read (s.own none)) ∧ (s.own none).len ≤ n ∧
    ((∀ c ∈ s.vals, c.length = n) ∧ s.ins = s.vals.flatten ++ s.read (s.own none) ∨ s.ended = true ∧ (s.own none).len = 0) := by
  induction h with
  | nil => simp [St.init, St.read, nil, chunks]
  | snoc hr hs ih =>
    rename_i s1 s2 l1 e
    obtain ⟨i1, i2, i3⟩ := ih
    have h1 := own_step (apart_run apart_init hr) hs none
    have h2 := own_len hs none
    have hf := own_full hr none
    cases hs with
    | recv x grow ht =>
      obtain ⟨t1, t2⟩ := ht
      have t2 := t2 n rfl
      obtain ⟨_, e2, e3, _⟩ := append_ended s1 none x grow
      simp only [Kind.key, if_true] at h1 h2 ⊢
      rcases i3 with ⟨j1, j2⟩ | ⟨j1, _⟩
      · have hv : (s1.append none x grow).vals = s1.vals := e3
        have hins : s1.ins ++ [x] = s1.vals.flatten ++ (s1.read (s1.own none) ++ [x]) := by rw [j2, List.append_assoc]
        rw [h1, h2]
        simp only [hv]
        refine ⟨?_, by omega, .inl ⟨j1, hins⟩⟩
        rw [hins, chunks_flatten (by omega) _ _ j1]
      · rw [t1] at j1; simp at j1
    | eof ht =>
      refine ⟨i1, i2, ?_⟩
      rcases i3 with j | ⟨_, j⟩
      · exact .inl j
      · exact .inr ⟨rfl, j⟩
    | send k hk =>
      obtain ⟨rfl, hk⟩ := hk
      have hpos : 0 < (s1.own none).len := by
        rcases hk with hk | ⟨_, hk⟩
        · omega
        · exact hf.2 hk
      have hne : s1.read (s1.own none) ≠ [] := by
        intro e; rw [e] at hf; simp at hf; omega
      simp only [if_true] at h1 h2 ⊢
      refine ⟨?_, by omega, ?_⟩
      · rw [h1, i1, chunks_short _ hne (by omega)]; simp [chunks]
      · rcases hk with hk | ⟨hk, _⟩
        · rcases i3 with ⟨j1, j2⟩ | ⟨_, j⟩
          · refine .inl ⟨fun c hc => ?_, ?_⟩
            · rcases List.mem_append.mp hc with hc | hc
              · exact j1 c hc
              · simp only [List.mem_singleton] at hc; subst hc; omega
            · rw [h1, j2]; simp
          · omega
        · exact .inr ⟨hk, h2⟩
    | poke => simp only at h1 h2 ⊢; rw [h1]; exact ⟨i1, i2, i3⟩
    | alloc => simp only at h1 h2 ⊢; exact ⟨i1, i2, i3⟩

/-- C127: whatever the consumers do with the slices they have received, the slices sent by Split are the chunks of its input. -/
theorem C127_split {n : Nat} (hn : 1 ≤ n) (h : Run (K := K) (.split n) St.init l s) :
    s.vals <+: chunks n s.ins ∧ (Finished (.split n) s → s.vals = chunks n s.ins) := by
  obtain ⟨i1, _, _⟩ := split_inv hn h
  refine ⟨⟨_, i1.symm⟩, fun ⟨h1, h2⟩ => ?_⟩
  have hf := own_full h none
  have h2 := h2 none
  have hc : (s.own none).cap = 0 := by
    by_contra hc
    exact h2 ⟨rfl, .inr ⟨h1, hc⟩⟩
  have hl : s.read (s.own none) = [] := by
    have := ((apart_run apart_init h).cap none).1
    exact List.length_eq_zero_iff.mp (by omega)
  rw [i1, hl]; simp [chunks]

theorem merge_inv (h : Run (K := K) .merge St.init l s) :
    s.vals = [] ∧ s.read (s.own none) = s.ins ∨ s.ended = true ∧ s.vals = [s.ins] := by
  induction h with
  | nil => left; simp [St.init, St.read, nil]
  | snoc hr hs ih =>
    rename_i s1 s2 l1 e
    have h1 := own_step (apart_run apart_init hr) hs none
    have hvl := vals_length hr
    cases hs with
    | recv x grow ht =>
      have e3 := (append_ended s1 none x grow).2.2.1
      simp only [Kind.key, if_true] at h1 ⊢
      rcases ih with ⟨j1, j2⟩ | ⟨j1, _⟩
      · exact .inl ⟨by rw [e3]; exact j1, by rw [h1, j2]⟩
      · rw [ht.1] at j1; simp at j1
    | eof ht =>
      rcases ih with j | ⟨_, j⟩
      · exact .inl j
      · exact .inr ⟨rfl, j⟩
    | send k hk =>
      obtain ⟨rfl, hk, hk'⟩ := hk
      rw [hk'] at hvl
      have hv : s1.vals = [] := List.length_eq_zero_iff.mp hvl
      rcases ih with ⟨_, j⟩ | ⟨_, j⟩
      · exact .inr ⟨hk, by simp only [hv, j, List.nil_append]⟩
      · rw [hv] at j; simp at j
    | poke => simp only at h1 ⊢; rw [h1]; exact ih
    | alloc => exact ih

/-- C127: Merge sends one slice, with all elements. -/
theorem C127_merge (h : Run (K := K) .merge St.init l s) :
    (s.vals = [] ∨ s.ended = true ∧ s.vals = [s.ins]) ∧ (Finished (.merge : Kind A K) s → s.vals = [s.ins]) := by
  have hi := merge_inv h
  refine ⟨hi.imp And.left id, fun ⟨h1, h2⟩ => ?_⟩
  rcases hi with ⟨j, _⟩ | ⟨_, j⟩
  · have hvl := vals_length h
    rw [j] at hvl
    exact absurd ⟨rfl, h1, List.length_eq_zero_iff.mp hvl.symm⟩ (h2 none)
  · exact j

theorem group_inv {f : A → K} (h : Run (.group f) St.init l s) :
    ∃ ks : List K, ks.Nodup ∧ s.vals = ks.map (fun k => s.ins.filter fun x => f x = k) ∧ (ks ≠ [] → s.ended = true) ∧
      (∀ k ∈ ks, s.ins.filter (fun x => f x = k) ≠ []) ∧
      ∀ k, s.read (s.own (some k)) = if k ∈ ks then [] else s.ins.filter fun x => f x = k := by
  induction h with
  | nil => exact ⟨[], by simp [St.init, St.read, nil]⟩
  | snoc hr hs ih =>
    rename_i s1 s2 l1 e
    obtain ⟨ks, i1, i2, i3, i4, i5⟩ := ih
    have h1 := fun k => own_step (apart_run apart_init hr) hs (some k)
    have hf := own_full hr
    cases hs with
    | recv x grow ht =>
      have hks : ks = [] := by
        by_contra hne
        have := i3 hne
        rw [ht.1] at this; simp at this
      subst hks
      have e3 := (append_ended s1 (some (f x)) x grow).2.2.1
      simp only [Kind.key] at h1 ⊢
      refine ⟨[], List.nodup_nil, by rw [e3, i2]; rfl, by simp, by simp, fun k => ?_⟩
      have h5 := i5 k
      simp only [List.not_mem_nil, if_false] at h5 ⊢
      have h1 := h1 k
      rw [h1, h5]
      by_cases e : f x = k
      · simp [e]
      · have e' : ¬ k = f x := fun h => e h.symm
        simp [e, e']
    | eof ht => exact ⟨ks, i1, i2, fun _ => rfl, i4, i5⟩
    | send k hk =>
      obtain ⟨hk1, hk2, hk3⟩ := hk
      obtain ⟨k, rfl⟩ := Option.ne_none_iff_exists'.mp hk1
      have h5 := i5 k
      have hlen := hf (some k)
      have hkn : k ∉ ks := by
        intro hm
        rw [if_pos hm] at h5
        rw [h5] at hlen
        have := hlen.2 hk3
        simp at hlen; omega
      rw [if_neg hkn] at h5
      refine ⟨ks ++ [k], ?_, ?_, fun _ => hk2, ?_, fun j => ?_⟩
      · rw [List.nodup_append]
        exact ⟨i1, by simp, fun a ha b hb e => hkn (by simp at hb; subst hb; subst e; exact ha)⟩
      · simp only [List.map_append, List.map_cons, List.map_nil, i2, h5]
      · intro j hj
        rcases List.mem_append.mp hj with hj | hj
        · exact i4 j hj
        · simp only [List.mem_singleton] at hj; subst hj
          intro e
          simp only at e
          rw [h5, e] at hlen
          have := hlen.2 hk3
          simp at hlen; omega
      · rw [h1 j]
        by_cases e : j = k
        · subst e; simp
        · simp only [Option.some.injEq, e, if_false, i5 j, List.mem_append, List.mem_singleton, or_false]
    | poke => exact ⟨ks, i1, i2, i3, i4, fun k => (h1 k).trans (i5 k)⟩
    | alloc => exact ⟨ks, i1, i2, i3, i4, fun k => (h1 k).trans (i5 k)⟩

/-- C127: whatever the consumers do with the slices they have received, the slices sent by Group are the groups of its input, one per key. -/
theorem C127_group {f : A → K} (h : Run (.group f) St.init l s) :
    ∃ ks : List K, ks.Nodup ∧ s.vals = ks.map (fun k => s.ins.filter fun x => f x = k) ∧ (∀ k ∈ ks, ∃ x ∈ s.ins, f x = k) ∧
      (Finished (.group f) s → ∀ x ∈ s.ins, f x ∈ ks) := by
  obtain ⟨ks, i1, i2, i3, i4, i5⟩ := group_inv h
  refine ⟨ks, i1, i2, fun k hk => ?_, fun ⟨h1, h2⟩ x hx => ?_⟩
  · obtain ⟨x, hx⟩ := List.exists_mem_of_ne_nil _ (i4 k hk)
    simp at hx; exact ⟨x, hx⟩
  · by_contra hn
    have h5 := i5 (f x)
    rw [if_neg hn] at h5
    have hm : x ∈ s.read (s.own (some (f x))) := by rw [h5]; simp [hx]
    have hl := (own_full h (some (f x))).1
    have hpos := List.length_pos_of_mem hm
    have hc := ((apart_run apart_init h).cap (some (f x))).1
    exact h2 (some (f x)) ⟨by simp, h1, by omega⟩

/-- Consumer 0 changes the first element of the only slice. -/
def demoRun : List (Ev Nat Nat) := [.recv 1 0, .recv 2 4, .recv 3 0, .eof, .send none, .poke 0 1 0 9]

/-- C127, refuted for Copy: consumer 1 has changed nothing, and does not see what was sent. -/
theorem C127_copy_refuted : ∃ s : St Nat Nat, Run .merge St.init demoRun s ∧ (∀ a i x, Ev.poke 1 a i x ∉ demoRun) ∧
    s.vals = [[1, 2, 3]] ∧ ∃ v, s.sent = [v] ∧ s.read v = [9, 2, 3] := by
  have t : ∀ s : St Nat Nat, s.ended = false → Kind.Takes (.merge : Kind Nat Nat) s := fun s h => ⟨h, fun n hn => by cases hn⟩
  refine ⟨_, .snoc (.snoc (.snoc (.snoc (.snoc (.snoc (.nil _) (.recv _ 1 0 (t _ rfl))) (.recv _ 2 4 (t _ rfl))) (.recv _ 3 0 (t _ rfl)))
    (.eof _ (t _ rfl))) (.send _ none ⟨rfl, rfl, rfl⟩)) (.poke _ 0 1 0 9 (.inr ⟨⟨1, 3, 4⟩, ?_, by simp, rfl⟩)), ?_, ?_, ⟨1, 3, 4⟩, ?_, ?_⟩
  · exact List.mem_singleton.mpr rfl
  · simp [demoRun]
  · rfl
  · rfl
  · rfl

/-- Split(2) of 1, 2, 3: the consumer appends to the first slice in place before the second one is sent. -/
def demoSplit : List (Ev Nat Nat) := [.recv 1 4, .recv 2 0, .send none, .poke 0 0 2 7, .recv 3 4, .eof, .send none]

theorem demo_split : ∃ s : St Nat Nat, Run (.split 2) St.init demoSplit s ∧ Finished (.split 2) s ∧ s.vals = [[1, 2], [3]] ∧
    s.sent = [⟨0, 2, 4⟩, ⟨1, 1, 4⟩] ∧ s.read ⟨0, 2, 4⟩ = [1, 2] ∧ s.read ⟨0, 3, 4⟩ = [1, 2, 7] := by
  have t : ∀ s : St Nat Nat, s.ended = false → (s.own none).len ≠ 2 → Kind.Takes (.split 2 : Kind Nat Nat) s :=
    fun s h h' => ⟨h, fun n hn => by cases hn; exact h'⟩
  refine ⟨_, .snoc (.snoc (.snoc (.snoc (.snoc (.snoc (.snoc (.nil _) (.recv _ 1 4 (t _ rfl (by decide)))) (.recv _ 2 0 (t _ rfl (by decide))))
    (.send _ none ⟨rfl, .inl rfl⟩)) (.poke _ 0 0 2 7 (.inr ⟨⟨0, 2, 4⟩, ?_, by simp, rfl⟩))) (.recv _ 3 4 (t _ rfl (by decide))))
    (.eof _ (t _ rfl (by decide)))) (.send _ none ⟨rfl, .inr ⟨rfl, by decide⟩⟩), ⟨rfl, ?_⟩, rfl, rfl, rfl, rfl⟩
  · exact List.mem_singleton.mpr rfl
  · rintro k ⟨rfl, h | ⟨_, h⟩⟩
    · exact absurd h (by decide)
    · exact absurd h (by decide)

example : ∃ s : St Nat Nat, Run (.split 2) St.init demoSplit s ∧ s.vals = chunks 2 s.ins := by
  obtain ⟨s, h, hf, _⟩ := demo_split
  exact ⟨s, h, (C127_split (by decide) h).2 hf⟩

example : ∃ s : St Nat Nat, Run (.split 2) St.init demoSplit s ∧ (⟨0, 2, 4⟩ : Slice).arr ≠ (⟨1, 1, 4⟩ : Slice).arr := by
  obtain ⟨s, h, _, _, hs, _⟩ := demo_split
  exact ⟨s, h, C127_apart h (i := 0) (j := 1) (by decide) (by rw [hs]; rfl) (by rw [hs]; rfl) (by decide) (by decide)⟩

example : ∃ s : St Nat Nat, Run (.split 2) St.init demoSplit s ∧ s.vals[1]? = some (s.read ⟨1, 1, 4⟩) := by
  obtain ⟨s, h, _, _, hs, _⟩ := demo_split
  exact ⟨s, h, C127_value h (by rw [hs]; rfl) (by simp [demoSplit])⟩

/-! ## Of -/

omit [DecidableEq K]

/-- xstream.go:98-112 `Of(items...)` called with a slice: the goroutine reads the array of the caller. -/
structure OfSt (A : Type) where
  /-- the array -/
  arr : List A
  /-- the loop variable of xstream.go:106 -/
  pos : Nat
  /-- the elements sent to the channel -/
  out : List A
  closed : Bool
  /-- what the caller has assigned to elements that had not been sent -/
  early : List (Nat × A)

/-- The goroutine of `Of` (xstream.go:110-114) sends the next element or closes the channel; its caller changes the slice it has passed. -/
inductive OfStep : OfSt A → OfSt A → Prop where
  | send (s : OfSt A) (x : A) : s.arr[s.pos]? = some x → OfStep s { s with pos := s.pos + 1, out := s.out ++ [x] }
  | close (s : OfSt A) : s.pos = s.arr.length → OfStep s { s with closed := true }
  /-- the caller: `items[i] = x` -/
  | write (s : OfSt A) (i : Nat) (x : A) : i < s.arr.length →
      OfStep s { s with arr := s.arr.set i x, early := if s.pos ≤ i then (i, x) :: s.early else s.early }

/-- The states that `Of(items...)` can reach. -/
inductive OfReach (items : List A) : OfSt A → Prop where
  | start : OfReach items ⟨items, 0, [], false, []⟩
  | step {s s' : OfSt A} : OfReach items s → OfStep s s' → OfReach items s'

theorem of_inv {items : List A} {s : OfSt A} (h : OfReach items s) :
    s.arr.length = items.length ∧ s.out.length = s.pos ∧ s.pos ≤ items.length ∧ (s.closed = true → s.pos = items.length) ∧
    (∀ k x, s.out[k]? = some x → items[k]? = some x ∨ (k, x) ∈ s.early) ∧
    ∀ k x, s.pos ≤ k → s.arr[k]? = some x → items[k]? = some x ∨ (k, x) ∈ s.early := by
  induction h with
  | start => simp
  | step hr hs ih =>
    obtain ⟨i1, i2, i3, i4, i5, i6⟩ := ih
    rename_i s1 s2
    cases hs with
    | send x hx =>
      have hlt := (List.getElem?_eq_some_iff.mp hx).1
      refine ⟨i1, by simp [i2], by simp only; omega, fun hc => ?_, fun k y hy => ?_, fun k y hk hy => i6 k y (by simp only at hk; omega) hy⟩
      · have := i4 hc; omega
      · simp only at hy
        by_cases e : k < s1.out.length
        · rw [List.getElem?_append_left e] at hy; exact i5 k y hy
        · have hk := (List.getElem?_eq_some_iff.mp hy).1
          have hk' : k = s1.pos := by simp at hk; omega
          subst hk'
          rw [List.getElem?_append_right (by omega), i2] at hy
          simp at hy; subst hy
          exact i6 s1.pos x (Nat.le_refl _) hx
    | close hp => exact ⟨i1, i2, i3, fun _ => by simp only; omega, i5, i6⟩
    | write i x hi =>
      have hm : ∀ p, p ∈ s1.early → p ∈ (if s1.pos ≤ i then (i, x) :: s1.early else s1.early) := by
        intro p hp; split
        · exact List.mem_cons_of_mem _ hp
        · exact hp
      refine ⟨by simp [i1], i2, i3, i4, fun k y hy => (i5 k y hy).imp id (hm _), fun k y hk hy => ?_⟩
      simp only at hk hy ⊢
      by_cases e : i = k
      · subst e
        rw [if_pos hk]
        rw [List.getElem?_set_self (by omega)] at hy
        simp at hy; subst hy
        exact .inr (List.mem_cons_self ..)
      · rw [List.getElem?_set_ne e] at hy
        exact (i6 k y hk hy).imp id (hm _)

/-- C127 for Of: an element is what it was at the call, or what the caller has assigned to it before it was sent. -/
theorem C127_of_exact {items : List A} {s : OfSt A} (h : OfReach items s) {k : Nat} {x : A} (hk : s.out[k]? = some x) :
    items[k]? = some x ∨ (k, x) ∈ s.early := (of_inv h).2.2.2.2.1 k x hk

/-- C127 for Of: a caller that does not change the slice until its elements have been sent gets the stream of the elements at the call. -/
theorem C127_of_partial {items : List A} {s : OfSt A} (h : OfReach items s) (he : s.early = []) :
    s.out <+: items ∧ (s.closed = true → s.out = items) := by
  obtain ⟨i1, i2, i3, i4, i5, _⟩ := of_inv h
  have hp : s.out = items.take s.out.length := by
    refine List.ext_getElem? fun k => ?_
    by_cases hk : k < s.out.length
    · have := i5 k _ (List.getElem?_eq_getElem hk)
      rw [he] at this
      simp only [List.not_mem_nil, or_false] at this
      rw [List.getElem?_eq_getElem hk, List.getElem?_take_of_lt hk, this]
    · rw [List.getElem?_eq_none (by omega), List.getElem?_eq_none (by simp; omega)]
  refine ⟨by rw [hp]; exact List.take_prefix _ _, fun hc => ?_⟩
  rw [hp, List.take_of_length_le]
  have := i4 hc; omega

/-- C127 for Of, refuted: the caller changes its slice after Of has returned, and the stream has the new element. -/
theorem C127_of_refuted : ∃ s : OfSt Nat, OfReach [1, 2] s ∧ s.closed = true ∧ s.out = [1, 9] :=
  ⟨_, .step (.step (.step (.step .start (.send _ 1 rfl)) (.write _ 1 9 (by decide))) (.send _ 9 rfl)) (.close _ rfl), rfl, rfl⟩

example : ∃ s : OfSt Nat, OfReach [1, 2] s ∧ s.early = [] ∧ s.arr = [7, 2] ∧ s.out = [1, 2] :=
  ⟨_, .step (.step (.step .start (.send _ 1 rfl)) (.write _ 0 7 (by decide))) (.send _ 2 rfl), rfl, rfl, rfl⟩

/-! ## Map of the collector -/

/-- The caller changes the map that `Map` has returned (collection.go:46): it is the map of the collector. -/
def change {α : Type} (h : GMap K (List (Val α)) → GMap K (List (Val α))) (g : GroupC α K) : GroupC α K := ⟨g.groups.map h⟩

/-- C127 for the collector: the next call of Map returns the changed map. -/
theorem C127_map_exact {α : Type} [DecidableEq K] (f : Val α → K) (g : GroupC α K) (items more : List (Val α))
    (h : GMap K (List (Val α)) → GMap K (List (Val α))) :
    ((change h (g.map f items).1).map f more).2.1 = h (g.map f items).2.1 := by
  obtain ⟨gs⟩ := g
  cases gs <;> rfl

/-- C127 for the collector, refuted: after the caller has emptied the map it got, Map returns an empty map. -/
theorem C127_map_refuted : ∃ (f : Val Nat → Nat) (items : List (Val Nat)) (g : GroupC Nat Nat), (g.map f items).2.1 ≠ [] ∧
    ((change (fun _ => []) (g.map f items).1).map f []).2.1 = [] :=
  ⟨fun _ => 0, [.atom 1], ⟨none⟩, by simp [GroupC.map, groupLoop, GMap.set], rfl⟩

end Verif.XStream.Heap

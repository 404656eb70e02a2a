import Verif.XStream.Stages
/-! # The collecting stages and the terminal operations are correct components -/
namespace Verif.XStream
open Verif.Go Verif.Conc.Net

variable {α K : Type}

/-- The chunks sent so far and the elements since. -/
def Chunked (n : Int) (ins : List (Val α)) (cs : List (List (Val α))) (chunk : List (Val α)) : Prop :=
  ins = cs.flatten ++ chunk ∧ ∀ c ∈ cs, (c.length : Int) = n

theorem Chunked.chunks {n : Int} (hn : 0 < n) {ins : List (Val α)} {cs : List (List (Val α))} {chunk : List (Val α)} (h : Chunked n ins cs chunk)
    (hl : (chunk.length : Int) ≤ n) : chunks n.toNat ins = if chunk = [] then cs else cs ++ [chunk] := by
  rw [h.1, chunks_flatten (by omega) cs chunk (fun c hc => by have := h.2 c hc; omega)]
  split
  · next e => rw [e, chunks_nil, List.append_nil]
  · next e => rw [chunks_short chunk e (by omega)]

theorem Chunked.push {n : Int} {ins : List (Val α)} {cs : List (List (Val α))} {chunk : List (Val α)} (h : Chunked n ins cs chunk) (v : Val α) :
    Chunked n (ins ++ [v]) cs (chunk ++ [v]) := ⟨by rw [h.1]; simp, h.2⟩

theorem Chunked.cut {n : Int} {ins : List (Val α)} {cs : List (List (Val α))} {chunk : List (Val α)} (h : Chunked n ins cs chunk)
    (hl : (chunk.length : Int) = n) : Chunked n ins (cs ++ [chunk]) [] :=
  ⟨by rw [h.1]; simp, by intro c hc; rcases List.mem_append.mp hc with hc | hc
                         · exact h.2 c hc
                         · simp at hc; subst hc; exact hl⟩

theorem Chunked.length {n : Int} (hn : 0 < n) {ins : List (Val α)} {cs : List (List (Val α))} {chunk : List (Val α)} (h : Chunked n ins cs chunk) :
    cs.length + chunk.length ≤ ins.length := by
  rw [h.1, List.length_append]
  have : ∀ cs : List (List (Val α)), (∀ c ∈ cs, (c.length : Int) = n) → cs.length ≤ cs.flatten.length := by
    intro cs
    induction cs with
    | nil => simp
    | cons c cs ih =>
      intro hh
      have h1 := ih fun c' hc' => hh c' (by simp [hc'])
      have h2 := hh c (by simp)
      simp only [List.length_cons, List.flatten_cons, List.length_append]
      omega
  have := this cs h.2
  omega

/-- Proof only: part of an invariant or simulation; models no code. -/
def splitInv (n : Int) : SplitSt α → Hist (Val α) (Ev α K) → Prop
  | .loop chunk, h => h.eof 0 = false ∧ h.closed 0 = false ∧ h.log = [] ∧ ∃ cs, h.outs 0 = cs.map .slice ∧ Chunked n (h.ins 0) cs chunk ∧ (chunk.length : Int) < n
  | .send chunk, h => h.eof 0 = false ∧ h.closed 0 = false ∧ h.log = [] ∧ ∃ cs, h.outs 0 = cs.map .slice ∧ Chunked n (h.ins 0) cs chunk ∧ (chunk.length : Int) = n
  | .last chunk, h => h.eof 0 = true ∧ h.closed 0 = false ∧ h.log = [] ∧ ∃ cs, h.outs 0 = cs.map .slice ∧ Chunked n (h.ins 0) cs chunk ∧ (chunk.length : Int) < n ∧ chunk ≠ []
  | .closing, h => h.eof 0 = true ∧ h.closed 0 = false ∧ h.log = [] ∧ h.outs 0 = (chunks n.toNat (h.ins 0)).map .slice
  | .done, h => h.eof 0 = true ∧ h.closed 0 = true ∧ h.log = [] ∧ h.outs 0 = (chunks n.toNat (h.ins 0)).map .slice

/-- Proof only: part of a measure; models no code. -/
def splitW : SplitSt α → Nat
  | .loop _ => 3
  | .send _ => 4
  | .last _ => 2
  | .closing => 1
  | .done => 0

theorem split_fine {n : Int} (hn : 0 < n) :
    Fine lim (splitS n : Seq (Val α) (Ev α K)).comp (lift fun xs ys log => ys = (chunks n.toNat xs).map .slice ∧ log = []) atMost := by
  refine Seq.fine (Inv := splitInv n) (W := splitW) (c := fun _ => 1) atMost_mono (by simp [splitS])
    ⟨rfl, rfl, rfl, [], rfl, ⟨rfl, by simp⟩, by simpa using hn⟩ ?_ ?_
  · intro s h hi
    cases s with
    | loop chunk =>
      obtain ⟨h1, h2, h3, cs, h4, h5, h6⟩ := hi
      refine ⟨by simp [splitS], h1, fun v => ⟨fun hl => ?_, ?_⟩, ?_, ?_⟩
      · by_cases e : ((chunk ++ [v]).length : Int) = n
        · simp only [e, if_true]
          exact ⟨h1, h2, h3, cs, h4, by simpa [Hist.add] using h5.push v, e⟩
        · simp only [e, if_false]
          refine ⟨h1, h2, h3, cs, h4, by simpa [Hist.add] using h5.push v, ?_⟩
          simp at e ⊢; omega
      · by_cases e : ((chunk ++ [v]).length : Int) = n <;> simp only [e, if_true, if_false, splitW] <;> omega
      · change splitInv n (if chunk ≠ [] then SplitSt.last chunk else .closing) (h.add (.eof 0))
        by_cases e : chunk ≠ []
        · rw [if_pos e]
          exact ⟨by simp [Hist.add], h2, h3, cs, h4, h5, h6, e⟩
        · rw [if_neg e]
          refine ⟨by simp [Hist.add], h2, h3, ?_⟩
          simp only [ne_eq, not_not] at e
          simp only [Hist.add, h4]
          rw [h5.chunks hn (by omega), if_pos e]
      · change splitW (if chunk ≠ [] then SplitSt.last chunk else .closing) < 3
        split <;> simp [splitW]
    | send chunk =>
      obtain ⟨h1, h2, h3, cs, h4, h5, h6⟩ := hi
      exact ⟨by simp [splitS], h2, ⟨h1, h2, h3, cs ++ [chunk], by simp [Hist.add, h4], h5.cut h6, by simpa using hn⟩, by simp [splitW]⟩
    | last chunk =>
      obtain ⟨h1, h2, h3, cs, h4, h5, h6, h7⟩ := hi
      refine ⟨by simp [splitS], h2, ⟨h1, h2, h3, ?_⟩, by simp [splitW]⟩
      simp only [Hist.add, upd_self, h4]
      rw [h5.chunks hn (by omega), if_neg h7]; simp
    | closing => simp_all [splitInv, splitS, splitNext, Seq.Ok, Hist.add, splitW]
    | done => simp_all [splitInv, splitS, splitNext, Seq.Ok, lift]
  · intro s h hi
    apply one_port (n := 0)
    have hl := chunks_length n.toNat (h.ins 0)
    cases s <;> simp only [splitInv, splitS] at hi ⊢
    · obtain ⟨_, _, _, cs, h4, h5, _⟩ := hi
      have := h5.length hn
      simp [h4, atMost]; omega
    · obtain ⟨_, _, _, cs, h4, h5, _⟩ := hi
      have := h5.length hn
      simp [h4, atMost]; omega
    · obtain ⟨_, _, _, cs, h4, h5, _⟩ := hi
      have := h5.length hn
      simp [h4, atMost]; omega
    · rw [hi.2.2.2]; simp [atMost]; omega
    · rw [hi.2.2.2]; simp [atMost]; omega

/-- Specification: the first `k` chunks are closed, in order (xstream.go:227, 234). -/
def closes (k : Nat) : List (Ev α K) := (List.range k).map .closeChunk

theorem closes_succ (k : Nat) : (closes (k + 1) : List (Ev α K)) = closes k ++ [.closeChunk k] := by simp [closes, List.range_succ]

/-- Proof only: part of an invariant or simulation; models no code. -/
def splitSteamInv (n : Int) : SplitStSt α → Hist (Val α) (Ev α K) → Prop
  | .loop k chunk, h => h.eof 0 = false ∧ h.closed 0 = false ∧ h.log = closes k ∧
      ∃ cs, cs.length = k ∧ h.outs 0 = cs.map .stream ∧ Chunked n (h.ins 0) cs chunk ∧ (chunk.length : Int) < n
  | .put k chunk v, h => h.eof 0 = false ∧ h.closed 0 = false ∧ h.log = closes k ∧
      ∃ cs, cs.length = k ∧ h.outs 0 = cs.map .stream ∧ Chunked n (h.ins 0) cs (chunk ++ [v]) ∧ (chunk.length : Int) < n
  | .send k chunk, h => h.eof 0 = false ∧ h.closed 0 = false ∧ h.log = closes k ∧
      ∃ cs, cs.length = k ∧ h.outs 0 = cs.map .stream ∧ Chunked n (h.ins 0) cs chunk ∧ (chunk.length : Int) = n
  | .closeChunk k, h => h.eof 0 = false ∧ h.closed 0 = false ∧ h.log = closes k ∧
      ∃ cs, cs.length = k + 1 ∧ h.outs 0 = cs.map .stream ∧ Chunked n (h.ins 0) cs []
  | .last k chunk, h => h.eof 0 = true ∧ h.closed 0 = false ∧ h.log = closes k ∧
      ∃ cs, cs.length = k ∧ h.outs 0 = cs.map .stream ∧ Chunked n (h.ins 0) cs chunk ∧ (chunk.length : Int) < n ∧ chunk ≠ []
  | .closeLast k, h => h.eof 0 = true ∧ h.closed 0 = false ∧ h.log = closes k ∧ (chunks n.toNat (h.ins 0)).length = k + 1 ∧
      h.outs 0 = (chunks n.toNat (h.ins 0)).map .stream
  | .closing, h => h.eof 0 = true ∧ h.closed 0 = false ∧ h.log = closes (chunks n.toNat (h.ins 0)).length ∧ h.outs 0 = (chunks n.toNat (h.ins 0)).map .stream
  | .done, h => h.eof 0 = true ∧ h.closed 0 = true ∧ h.log = closes (chunks n.toNat (h.ins 0)).length ∧ h.outs 0 = (chunks n.toNat (h.ins 0)).map .stream

/-- Proof only: part of a measure; models no code. -/
def splitSteamW : SplitStSt α → Nat
  | .loop _ _ => 4
  | .put _ _ _ => 7
  | .send _ _ => 6
  | .closeChunk _ => 5
  | .last _ _ => 3
  | .closeLast _ => 2
  | .closing => 1
  | .done => 0

theorem splitSteam_fine {n : Int} (hn : 0 < n) :
    Fine lim (splitSteamS n : Seq (Val α) (Ev α K)).comp (lift fun xs ys log => ys = (chunks n.toNat xs).map .stream ∧
      log = (List.range (chunks n.toNat xs).length).map .closeChunk) atMost := by
  refine Seq.fine (Inv := splitSteamInv n) (W := splitSteamW) (c := fun _ => 3) atMost_mono (by simp [splitSteamS])
    ⟨rfl, rfl, rfl, [], rfl, rfl, ⟨rfl, by simp⟩, by simpa using hn⟩ ?_ ?_
  · intro s h hi
    cases s with
    | loop k chunk =>
      obtain ⟨h1, h2, h3, cs, h0, h4, h5, h6⟩ := hi
      refine ⟨by simp [splitSteamS], h1, fun v => ⟨fun hl => ?_, by simp [splitSteamW]⟩, ?_, ?_⟩
      · exact ⟨h1, h2, h3, cs, h0, h4, by simpa [Hist.add] using h5.push v, h6⟩
      · change splitSteamInv n (if (chunk.length : Int) ≠ 0 then SplitStSt.last k chunk else .closing) (h.add (.eof 0))
        by_cases e : (chunk.length : Int) ≠ 0
        · rw [if_pos e]
          exact ⟨by simp [Hist.add], h2, h3, cs, h0, h4, h5, h6, by rintro rfl; simp at e⟩
        · rw [if_neg e]
          have e' : chunk = [] := by
            apply List.length_eq_zero_iff.mp; omega
          have hc := h5.chunks hn (by omega)
          rw [if_pos e'] at hc
          refine ⟨by simp [Hist.add], h2, ?_, ?_⟩
          · simp only [Hist.add]; rw [hc, h0]; exact h3
          · simp only [Hist.add]; rw [hc]; exact h4
      · change splitSteamW (if (chunk.length : Int) ≠ 0 then SplitStSt.last k chunk else .closing) < 4
        split <;> simp [splitSteamW]
    | put k chunk v =>
      obtain ⟨h1, h2, h3, cs, h0, h4, h5, h6⟩ := hi
      have hnext : splitSteamNext (K := K) n (.put k chunk v) =
          .tau (if ((chunk ++ [v]).length : Int) = n then .send k (chunk ++ [v]) else .loop k (chunk ++ [v])) := by
        rw [splitSteamNext, if_pos h6]
      change Seq.Ok (splitSteamS n) _ _ _ _ _ _ _ (splitSteamNext n (.put k chunk v))
      rw [hnext]
      change splitSteamInv n (if ((chunk ++ [v]).length : Int) = n then SplitStSt.send k (chunk ++ [v]) else .loop k (chunk ++ [v])) h ∧
        splitSteamW (if ((chunk ++ [v]).length : Int) = n then SplitStSt.send k (chunk ++ [v]) else .loop k (chunk ++ [v])) < 7
      by_cases e : ((chunk ++ [v]).length : Int) = n
      · rw [if_pos e]
        exact ⟨⟨h1, h2, h3, cs, h0, h4, h5, e⟩, by simp [splitSteamW]⟩
      · rw [if_neg e]
        refine ⟨⟨h1, h2, h3, cs, h0, h4, h5, ?_⟩, by simp [splitSteamW]⟩
        simp at e ⊢; omega
    | send k chunk =>
      obtain ⟨h1, h2, h3, cs, h0, h4, h5, h6⟩ := hi
      exact ⟨by simp [splitSteamS], h2, ⟨h1, h2, h3, cs ++ [chunk], by simp [h0], by simp [Hist.add, h4], h5.cut h6⟩, by simp [splitSteamW]⟩
    | closeChunk k =>
      obtain ⟨h1, h2, h3, cs, h0, h4, h5⟩ := hi
      exact ⟨⟨h1, h2, by simp [Hist.add, h3, closes_succ], cs, h0, h4, h5, by simpa using hn⟩, by simp [splitSteamW]⟩
    | last k chunk =>
      obtain ⟨h1, h2, h3, cs, h0, h4, h5, h6, h7⟩ := hi
      have hc := h5.chunks hn (by omega)
      rw [if_neg h7] at hc
      refine ⟨by simp [splitSteamS], h2, ⟨h1, h2, h3, ?_, ?_⟩, by simp [splitSteamW]⟩
      · simp only [Hist.add]; rw [hc]; simp [h0]
      · simp only [Hist.add, upd_self]; rw [hc, h4]; simp
    | closeLast k =>
      obtain ⟨h1, h2, h3, h4, h5⟩ := hi
      refine ⟨⟨h1, h2, ?_, h5⟩, by simp [splitSteamW]⟩
      simp only [Hist.add]; rw [h4, closes_succ, h3]
    | closing => simp_all [splitSteamInv, splitSteamS, splitSteamNext, Seq.Ok, Hist.add, splitSteamW]
    | done => simp_all [splitSteamInv, splitSteamS, splitSteamNext, Seq.Ok, lift, closes]
  · intro s h hi
    apply one_port (n := 0)
    have hl := chunks_length n.toNat (h.ins 0)
    cases s <;> simp only [splitSteamInv, splitSteamS] at hi ⊢
    all_goals first
      | (obtain ⟨_, _, _, cs, h0, h4, h5, _⟩ := hi
         have := h5.length hn
         simp [h4, atMost]; omega)
      | (rw [hi.2.2.2.2]; simp [atMost]; omega)
      | (rw [hi.2.2.2]; simp [atMost]; omega)
      | (obtain ⟨_, _, _, cs, h0, h4, h5⟩ := hi
         have := h5.length hn
         simp [h4, atMost]; omega)

/-! ## Tail -/

/-- Proof only: part of an invariant or simulation; models no code. -/
def tailInv (n : Int) : TailSt α → Hist (Val α) (Ev α K) → Prop
  | .loop r, h => h.eof 0 = false ∧ h.closed 0 = false ∧ h.outs 0 = [] ∧ h.log = [] ∧ XRing.Rep n.toNat (h.ins 0) r
  | .sending rest, h => h.eof 0 = true ∧ h.closed 0 = false ∧ h.outs 0 ++ rest = lastN n.toNat (h.ins 0) ∧ h.log = []
  | .done, h => h.eof 0 = true ∧ h.closed 0 = true ∧ h.outs 0 = lastN n.toNat (h.ins 0) ∧ h.log = []

/-- Proof only: part of a measure; models no code. -/
def tailW : TailSt α → Nat
  | .loop r => r.elements.length + 2
  | .sending rest => rest.length + 1
  | .done => 0

theorem ring_add_length {A : Type} {r r' : XRing.Ring A} {v : A} (h : r.add v = some r') : r'.elements.length = r.elements.length := by
  unfold XRing.Ring.add at h
  split at h
  · simp at h
  · dsimp only at h
    split at h
    · simp at h
    · cases h; simp

theorem lastN_length {A : Type} (n : Nat) (l : List A) : (lastN n l).length ≤ n ∧ (lastN n l).length ≤ l.length := by
  simp [lastN]; omega

theorem tail_fine {n : Int} (hn : 0 < n) :
    Fine lim (tailS n : Seq (Val α) (Ev α K)).comp (lift fun xs ys log => ys = lastN n.toNat xs ∧ log = []) atMost := by
  refine Seq.fine (Inv := tailInv n) (W := tailW) (c := fun _ => 0) atMost_mono (by simp [tailS])
    ⟨rfl, rfl, rfl, rfl, XRing.rep_newU Val.nil (show 1 ≤ n.toNat by omega)⟩ ?_ ?_
  · intro s h hi
    cases s with
    | loop r =>
      obtain ⟨h1, h2, h3, h4, h5⟩ := hi
      have ht : r.take = some (lastN n.toNat (h.ins 0)) := XRing.rep_take h5
      refine ⟨by simp [tailS], h1, fun v => ⟨fun hl => ?_, ?_⟩, ?_, ?_⟩
      · obtain ⟨r', e1, e2⟩ := XRing.rep_add h5 v (by unfold lim at hl; omega)
        simp only [e1]
        exact ⟨h1, h2, h3, h4, by simpa [Hist.add] using e2⟩
      · cases e : r.add v with
        | none => simp only [e, tailW]; simp
        | some r' => simp only [e, tailW, ring_add_length e]; simp
      · simp only [ht]
        exact ⟨by simp [Hist.add], h2, by simp [Hist.add, h3], h4⟩
      · simp only [ht, tailW, h5.len]
        have := (lastN_length n.toNat (h.ins 0)).1
        omega
    | sending rest => cases rest <;> simp_all [tailInv, tailS, tailNext, Seq.Ok, Hist.add, tailW]
    | done => simp_all [tailInv, tailS, tailNext, Seq.Ok, lift]
  · intro s h hi
    apply one_port (n := 0)
    have hl := (lastN_length n.toNat (h.ins 0)).2
    cases s <;> simp only [tailInv, tailS] at hi ⊢
    · simp [hi.2.2.1]
    · have := congrArg List.length hi.2.2.1; simp [atMost] at this ⊢; omega
    · rw [hi.2.2.1]; simp [atMost]; omega

/-! ## Merge, Reverse, Sort, Group -/

/-- Proof only: part of an invariant or simulation; models no code. -/
def mergeInv : MergeSt α → Hist (Val α) (Ev α K) → Prop
  | .loop items, h => h.eof 0 = false ∧ h.closed 0 = false ∧ h.outs 0 = [] ∧ h.log = [] ∧ items = h.ins 0
  | .send items, h => h.eof 0 = true ∧ h.closed 0 = false ∧ h.outs 0 = [] ∧ h.log = [] ∧ items = h.ins 0
  | .closing, h => h.eof 0 = true ∧ h.closed 0 = false ∧ h.outs 0 = [.slice (h.ins 0)] ∧ h.log = []
  | .done, h => h.eof 0 = true ∧ h.closed 0 = true ∧ h.outs 0 = [.slice (h.ins 0)] ∧ h.log = []

/-- Proof only: part of a measure; models no code. -/
def mergeW : MergeSt α → Nat
  | .loop _ => 3
  | .send _ => 2
  | .closing => 1
  | .done => 0

theorem merge_fine : Fine lim (mergeS : Seq (Val α) (Ev α K)).comp (lift fun xs ys log => ys = [.slice xs] ∧ log = []) atMost := by
  refine Seq.fine (Inv := mergeInv) (W := mergeW) (c := fun _ => 0) atMost_mono (by simp [mergeS]) (by simp [mergeInv, Hist.empty, mergeS]) ?_ ?_
  · intro s h hi
    cases s <;> simp_all [mergeInv, mergeS, mergeNext, Seq.Ok, lift, Hist.add, mergeW]
  · intro s h hi
    apply one_port (n := 0)
    cases s <;> simp_all [mergeInv, mergeS, atMost] <;> omega

/-- Proof only: part of an invariant or simulation; models no code. -/
def collectInv (g : List (Val α) → List (Val α)) : CollectSt α → Hist (Val α) (Ev α K) → Prop
  | .loop items, h => h.eof 0 = false ∧ h.closed 0 = false ∧ h.outs 0 = [] ∧ h.log = [] ∧ items = h.ins 0
  | .sending _ rest, h => h.eof 0 = true ∧ h.closed 0 = false ∧ h.outs 0 ++ rest = g (h.ins 0) ∧ h.log = []
  | .done, h => h.eof 0 = true ∧ h.closed 0 = true ∧ h.outs 0 = g (h.ins 0) ∧ h.log = []

/-- Proof only: part of a measure; models no code. -/
def collectW : CollectSt α → Nat
  | .loop items => items.length + 2
  | .sending _ rest => rest.length + 1
  | .done => 0

theorem collect_fine (c : List (Val α) → Nat) (g : List (Val α) → List (Val α)) (hg : ∀ l, (g l).length ≤ l.length) :
    Fine lim (collectS c g : Seq (Val α) (Ev α K)).comp (lift fun xs ys log => ys = g xs ∧ log = []) atMost := by
  refine Seq.fine (Inv := collectInv g) (W := collectW) (c := fun _ => 1) atMost_mono (by simp [collectS])
    (by simp [collectInv, Hist.empty, collectS]) ?_ ?_
  · intro s h hi
    cases s with
    | loop items =>
      obtain ⟨h1, h2, h3, h4, h5⟩ := hi
      refine ⟨by simp [collectS], h1, fun v => ⟨fun _ => ?_, by simp [collectW]⟩, ?_, ?_⟩
      · exact ⟨h1, h2, h3, h4, by simp [Hist.add, h5]⟩
      · exact ⟨by simp [Hist.add], h2, by simp [Hist.add, h3, h5], h4⟩
      · have := hg items
        simp [collectW]; omega
    | sending cc rest => cases rest <;> simp_all [collectInv, collectS, collectNext, Seq.Ok, Hist.add, collectW]
    | done => simp_all [collectInv, collectS, collectNext, Seq.Ok, lift]
  · intro s h hi
    apply one_port (n := 0)
    have hl := hg (h.ins 0)
    cases s <;> simp only [collectInv, collectS] at hi ⊢
    · simp [hi.2.2.1]
    · have := congrArg List.length hi.2.2.1; simp [atMost] at this ⊢; omega
    · rw [hi.2.2.1]; simp [atMost]; omega

/-! ## Terminal operations -/

theorem no_port {C : Nat → Nat} : ∀ q < 0, C q ≤ 0 := fun _ h => absurd h (by omega)

/-- Proof only: part of an invariant or simulation; models no code. -/
def foreachInv : TermSt α K → Hist (Val α) (Ev α K) → Prop
  | .loop, h => h.eof 0 = false ∧ h.log = (h.ins 0).map .call
  | .call v, h => h.eof 0 = false ∧ h.log ++ [.call v] = (h.ins 0).map .call
  | .ret r, h => h.eof 0 = true ∧ r = .unit ∧ h.log = (h.ins 0).map .call
  | .drain, _ => False
  | .done, h => h.eof 0 = true ∧ h.log = (h.ins 0).map .call ++ [.ret .unit]

/-- Proof only: part of a measure; models no code. -/
def termW : TermSt α K → Nat
  | .loop => 3
  | .call _ => 4
  | .ret _ => 2
  | .drain => 1
  | .done => 0

theorem foreach_fine : Fine lim (foreachS : Seq (Val α) (Ev α K)).comp (lift fun xs _ log => log = xs.map .call ++ [.ret .unit]) (fun _ => 0) := by
  refine Seq.fine (Inv := foreachInv) (W := termW) (c := fun _ => 1) (by simp) (by simp [foreachS]) (by simp [foreachInv, Hist.empty, foreachS]) ?_
    (by simp [foreachS])
  intro s h hi
  cases s <;> simp_all [foreachInv, foreachS, foreachNext, Seq.Ok, lift, Hist.add, termW]

/-- Proof only: part of an invariant or simulation; models no code. -/
def doneInv : TermSt α K → Hist (Val α) (Ev α K) → Prop
  | .loop, h => h.eof 0 = false ∧ h.log = []
  | .ret r, h => h.eof 0 = true ∧ r = .unit ∧ h.log = []
  | .done, h => h.eof 0 = true ∧ h.log = [.ret .unit]
  | _, _ => False

theorem done_fine : Fine lim (doneS : Seq (Val α) (Ev α K)).comp (lift fun _ _ log => log = [.ret .unit]) (fun _ => 0) := by
  refine Seq.fine (Inv := doneInv) (W := termW) (c := fun _ => 0) (by simp) (by simp [doneS]) (by simp [doneInv, Hist.empty, doneS]) ?_
    (by simp [doneS])
  intro s h hi
  cases s <;> simp_all [doneInv, doneS, doneNext, Seq.Ok, lift, Hist.add, termW]

/-- Proof only: part of an invariant or simulation; models no code. -/
def machInv (want : Bool) (f : Val α → Bool) : TermSt α K → Hist (Val α) (Ev α K) → Prop
  | .loop, h => h.eof 0 = false ∧ (h.ins 0).any (fun x => f x == want) = false ∧ h.log = (h.ins 0).map .call
  | .call v, h => h.eof 0 = false ∧ ∃ xs, h.ins 0 = xs ++ [v] ∧ xs.any (fun x => f x == want) = false ∧ h.log = xs.map .call
  | .ret (.bool b), h => h.log = (upTo (fun x => f x == want) (h.ins 0)).map .call ∧
      if b = want then h.eof 0 = false ∧ (h.ins 0).any (fun x => f x == want) = true
      else h.eof 0 = true ∧ (h.ins 0).any (fun x => f x == want) = false
  | .drain, h => h.eof 0 = false ∧ (h.ins 0).any (fun x => f x == want) = true ∧
      h.log = (upTo (fun x => f x == want) (h.ins 0)).map .call ++ [.ret (.bool want)]
  | .done, h => h.eof 0 = true ∧ h.log = (upTo (fun x => f x == want) (h.ins 0)).map .call ++
      [.ret (.bool ((h.ins 0).any (fun x => f x == want) == want))]
  | _, _ => False

theorem mach_fine (want : Bool) (f : Val α → Bool) : Fine lim (machS want f : Seq (Val α) (Ev α K)).comp
    (lift fun xs _ log => log = (upTo (fun x => f x == want) xs).map .call ++ [.ret (.bool (xs.any (fun x => f x == want) == want))])
    (fun _ => 0) := by
  refine Seq.fine (Inv := machInv want f) (W := termW) (c := fun _ => 1) (by simp) (by simp [machS]) (by simp [machInv, Hist.empty, machS]) ?_
    (by simp [machS])
  intro s h hi
  cases s with
  | loop =>
    obtain ⟨h1, h2, h3⟩ := hi
    refine ⟨by simp [machS], h1, fun v => ⟨fun _ => ?_, by simp [termW]⟩, ?_, by simp [termW]⟩
    · exact ⟨h1, h.ins 0, by simp [Hist.add], h2, h3⟩
    · refine ⟨by simp [Hist.add, upTo_of_none _ _ h2, h3], ?_⟩
      rw [if_neg (by cases want <;> simp)]
      exact ⟨by simp [Hist.add], h2⟩
  | call v =>
    obtain ⟨h1, xs, h2, h3, h4⟩ := hi
    refine ⟨?_, by by_cases e : f v = want <;> simp [e, termW]⟩
    by_cases e : f v = want
    · rw [if_pos e]
      refine ⟨?_, ?_⟩
      · simp only [Hist.add]; rw [h2, upTo_snoc_of_none _ _ _ h3, h4]; simp
      · rw [if_pos rfl]
        refine ⟨h1, ?_⟩
        simp only [Hist.add]; rw [h2]; simp [e]
    · rw [if_neg e]
      refine ⟨h1, ?_, ?_⟩
      · simp only [Hist.add]; rw [h2]; simp only [List.any_append, h3]; simp [e]
      · simp only [Hist.add]; rw [h2, h4]; simp
  | ret r =>
    cases r with
    | bool b =>
      obtain ⟨h1, h2⟩ := hi
      refine ⟨?_, by by_cases e : b = want <;> simp [e, termW]⟩
      by_cases e : b = want
      · rw [if_pos e] at h2 ⊢
        refine ⟨h2.1, h2.2, ?_⟩
        simp only [Hist.add]; rw [h1, e]
      · rw [if_neg e] at h2 ⊢
        refine ⟨h2.1, ?_⟩
        simp only [Hist.add]; rw [h1, h2.2]
        have : b = !want := by cases b <;> cases want <;> simp_all
        simp [this]
    | _ => exact absurd hi (by simp [machInv])
  | drain =>
    obtain ⟨h1, h2, h3⟩ := hi
    refine ⟨by simp [machS], h1, fun v => ⟨fun _ => ?_, by simp [termW]⟩, ?_, by simp [termW]⟩
    · refine ⟨h1, ?_, ?_⟩
      · simp only [Hist.add, upd_self, List.any_append, h2, Bool.true_or]
      · simp only [Hist.add, upd_self]; rw [upTo_append _ _ _ h2, h3]
    · refine ⟨by simp [Hist.add], ?_⟩
      simp only [Hist.add]; rw [h2, h3]; simp
  | done => exact ⟨fun p hp => by have : p = 0 := by simpa [machS] using hp
                                  subst this; exact hi.1, by simp [machS], hi.2⟩

/-- Proof only: part of an invariant or simulation; models no code. -/
def findFirstInv : TermSt α K → Hist (Val α) (Ev α K) → Prop
  | .loop, h => h.eof 0 = false ∧ h.ins 0 = [] ∧ h.log = []
  | .ret (.elem v), h => h.eof 0 = false ∧ h.ins 0 = [v] ∧ h.log = []
  | .ret .noElement, h => h.eof 0 = true ∧ h.ins 0 = [] ∧ h.log = []
  | .drain, h => h.eof 0 = false ∧ ∃ v l, h.ins 0 = v :: l ∧ h.log = [.ret (.elem v)]
  | .done, h => h.eof 0 = true ∧ h.log = [.ret (match (h.ins 0).head? with | some v => .elem v | none => .noElement)]
  | _, _ => False

theorem findFirst_fine : Fine lim (findFirstS : Seq (Val α) (Ev α K)).comp
    (lift fun xs _ log => log = [.ret (match xs.head? with | some v => .elem v | none => .noElement)]) (fun _ => 0) := by
  refine Seq.fine (Inv := findFirstInv) (W := termW) (c := fun _ => 0) (by simp) (by simp [findFirstS])
    (by simp [findFirstInv, Hist.empty, findFirstS]) ?_ (by simp [findFirstS])
  intro s h hi
  cases s with
  | loop => simp_all [findFirstInv, findFirstS, findFirstNext, Seq.Ok, Hist.add, termW]
  | ret r =>
    cases r <;> simp_all [findFirstInv, findFirstS, findFirstNext, Seq.Ok, Hist.add, termW]
  | drain =>
    obtain ⟨h1, v, l, h2, h3⟩ := hi
    simp_all [findFirstInv, findFirstS, findFirstNext, Seq.Ok, Hist.add, termW]
  | call v => simp_all [findFirstInv]
  | done => simp_all [findFirstInv, findFirstS, findFirstNext, Seq.Ok, lift]

/-- Proof only: part of an invariant or simulation; models no code. -/
def foldInv {β : Type} (R : List (Val α) → β → Prop) (fin : β → Ret α K) : FoldSt α K β → Hist (Val α) (Ev α K) → Prop
  | .loop acc, h => h.eof 0 = false ∧ R (h.ins 0) acc ∧ h.log = []
  | .ret r, h => h.eof 0 = true ∧ (∃ acc, R (h.ins 0) acc ∧ r = fin acc) ∧ h.log = []
  | .done, h => h.eof 0 = true ∧ ∃ acc, R (h.ins 0) acc ∧ h.log = [.ret (fin acc)]

/-- Proof only: part of a measure; models no code. -/
def foldW {β : Type} : FoldSt α K β → Nat
  | .loop _ => 2
  | .ret _ => 1
  | .done => 0

/-- `R xs acc` relates the elements so far to the accumulator. -/
theorem fold_fine {β : Type} (step : β → Val α → β) (init : β) (fin : β → Ret α K) (R : List (Val α) → β → Prop) (h0 : R [] init)
    (hstep : ∀ xs acc v, xs.length + 1 < lim → R xs acc → R (xs ++ [v]) (step acc v)) :
    Fine lim (foldS step init fin : Seq (Val α) (Ev α K)).comp (lift fun xs _ log => ∃ acc, R xs acc ∧ log = [.ret (fin acc)]) (fun _ => 0) := by
  refine Seq.fine (Inv := foldInv R fin) (W := foldW) (c := fun _ => 0) (by simp) (by simp [foldS])
    ⟨rfl, h0, rfl⟩ ?_ (by simp [foldS])
  intro s h hi
  cases s with
  | loop acc =>
    obtain ⟨h1, h2, h3⟩ := hi
    refine ⟨by simp [foldS], h1, fun v => ⟨fun hl => ⟨h1, by simpa [Hist.add] using hstep _ _ v hl h2, h3⟩, by simp [foldW]⟩, ?_, by simp [foldW]⟩
    exact ⟨by simp [Hist.add], ⟨acc, h2, rfl⟩, h3⟩
  | ret r =>
    obtain ⟨h1, ⟨acc, h2, rfl⟩, h3⟩ := hi
    exact ⟨⟨h1, acc, h2, by simp [Hist.add, h3]⟩, by simp [foldW]⟩
  | done => exact ⟨fun p hp => by have : p = 0 := by simpa [foldS] using hp
                                  subst this; exact hi.1, by simp [foldS], hi.2⟩

/-- Proof only: part of an invariant or simulation; models no code. -/
def orderedInv : OrderedSt α → Hist (Val α) (Ev α K) → Prop
  | .loop items, h => h.eof 0 = false ∧ items = h.ins 0 ∧ h.log = []
  | .back items i, h => h.eof 0 = true ∧ items = h.ins 0 ∧ -1 ≤ i ∧ i < items.length ∧ h.log = (items.drop (i + 1).toNat).reverse.map .call
  | .ret, h => h.eof 0 = true ∧ h.log = (h.ins 0).reverse.map .call
  | .done, h => h.eof 0 = true ∧ h.log = (h.ins 0).reverse.map .call ++ [.ret .unit]

/-- Proof only: part of a measure; models no code. -/
def orderedW : OrderedSt α → Nat
  | .loop items => items.length + 3
  | .back _ i => (i + 1).toNat + 2
  | .ret => 1
  | .done => 0

theorem ordered_fine : Fine lim (orderedS : Seq (Val α) (Ev α K)).comp (lift fun xs _ log => log = xs.reverse.map .call ++ [.ret .unit]) (fun _ => 0) := by
  refine Seq.fine (Inv := orderedInv) (W := orderedW) (c := fun _ => 1) (by simp) (by simp [orderedS])
    (by simp [orderedInv, Hist.empty, orderedS]) ?_ (by simp [orderedS])
  intro s h hi
  cases s with
  | loop items =>
    obtain ⟨h1, h2, h3⟩ := hi
    refine ⟨by simp [orderedS], h1, fun v => ⟨fun _ => ⟨h1, by simp [Hist.add, h2], h3⟩, by simp [orderedW]⟩, ?_, by simp [orderedW]⟩
    exact ⟨by simp [Hist.add], h2, by omega, by omega, by simp [Hist.add, h3]⟩
  | back items i =>
    obtain ⟨h1, h2, h3, h4, h5⟩ := hi
    change Seq.Ok orderedS _ _ _ _ _ _ _ (orderedNext (.back items i))
    by_cases e : i ≥ 0
    · have : orderedNext (K := K) (.back items i) = .log (.call (items.getD i.toNat .nil)) (.back items (i - 1)) := by
        rw [orderedNext, if_pos e]
      rw [this]
      refine ⟨⟨h1, h2, by omega, by omega, ?_⟩, by simp [orderedW]; omega⟩
      have hi : i.toNat < items.length := by omega
      have h6 : (i - 1 + 1).toNat = i.toNat := by omega
      have h7 : (i + 1).toNat = i.toNat + 1 := by omega
      simp only [Hist.add]
      rw [h5, h6, h7, List.drop_eq_getElem_cons hi, List.getD_eq_getElem?_getD, List.getElem?_eq_getElem hi]
      rw [List.reverse_cons, List.map_append]; rfl
    · have : orderedNext (K := K) (.back items i) = .tau .ret := by rw [orderedNext, if_neg e]
      rw [this]
      refine ⟨⟨h1, ?_⟩, by simp [orderedW]⟩
      have : (i + 1).toNat = 0 := by omega
      rw [h5, this, ← h2]; rfl
  | ret => simp_all [orderedInv, orderedS, orderedNext, Seq.Ok, Hist.add, orderedW]
  | done => simp_all [orderedInv, orderedS, orderedNext, Seq.Ok, lift]

end Verif.XStream

import Verif.XSync.ResManInv
/-! # More invariants of the resource manager: who removed, who failed, and what has been closed -/
namespace Verif.XSync.ResMan
open Verif.Conc Verif.XError

variable {K E : Type} [DecidableEq K]

/-- The call has an outcome as the leader of a flight. -/
def Leads (g : G K E) (v : View (Op K E) (Res' E) (Pt K E)) (l : Nat) (k : K) (f : Option E) (o : Outcome E) : Prop :=
  v l = some (.get k f, .inl (.finish o)) ∨ v l = some (.get k f, .inl (.drop o)) ∨ (g.fin l = some o ∧ ∃ x, v l = some (.get k f, x))

/-- `B a b`: call `a` returned before call `b` was made. -/
structure Ext (g : G K E) (v : View (Op K E) (Res' E) (Pt K E)) (B : Nat → Nat → Prop) : Prop where
  b1 : ∀ a b, B a b → ∃ x, v b = some x
  b2 : ∀ a b, B a b → ∃ op r, v a = some (op, .inr r)
  heldRem : ∀ k r, held k g.log = some r → g.remBy r = none
  remBy : ∀ r c, g.remBy r = some c → ∃ k, v c = some (.remove k, .inr (.removed true)) ∧ LogEv.stored k r ∈ g.log
  removed : ∀ k r, LogEv.removed k r ∈ g.log → ∃ c, g.remBy r = some c ∧ v c = some (.remove k, .inr (.removed true))
  leadGot : ∀ l k f r c, Leads g v l k f (.got r) → g.remBy r = some c → ¬ B c l
  leadFail : ∀ l k f e, Leads g v l k f (.failed e) → f = some e
  waits : ∀ i k f l, v i = some (.get k f, .inl (.wait l)) → ¬ B l i
  got : ∀ i k f r, v i = some (.get k f, .inr (.get (.got r))) → ∃ l f' x, v l = some (.get k f', x) ∧ ¬ B l i ∧ ∀ c, g.remBy r = some c → ¬ B c l
  failed : ∀ i k f e, v i = some (.get k f, .inr (.get (.failed e))) → ∃ l x, v l = some (.get k (some e), x) ∧ ¬ B l i
  lockBy : ∀ i, g.wlock = some i → (∃ todo be, v i = some (.close, .inl (.closing todo be))) ∨
    ∃ k f x, v i = some (.get k f, x) ∧ carries x = some .panic
  closedHeld : g.res = none → ∀ r, r ∈ closedLog g.log ↔ ∃ k, held k g.log = some r

theorem ext_init : Ext (new : G K E) (fun _ => none) (fun _ _ => False) := by
  constructor <;> simp [new, held, closedLog, Leads]

theorem ext_frame {g : G K E} {v : View (Op K E) (Res' E) (Pt K E)} {B B' : Nat → Nat → Prop} (h : Ext g v B) (hB : ∀ a b, B' a b → B a b) :
    Ext g v B' := by
  obtain ⟨b1, b2, e1, e2, e3, e4, e5, e6, e7, e8, e9, e10⟩ := h
  exact ⟨fun a b hb => b1 a b (hB a b hb), fun a b hb => b2 a b (hB a b hb), e1, e2, e3, fun l k f r c h1 h2 hb => e4 l k f r c h1 h2 (hB _ _ hb), e5,
    fun i k f l h1 hb => e6 i k f l h1 (hB _ _ hb), fun i k f r hi => by
      obtain ⟨l, f', x, h1, h2, h3⟩ := e7 i k f r hi
      exact ⟨l, f', x, h1, fun hb => h2 (hB _ _ hb), fun c hc hb => h3 c hc (hB _ _ hb)⟩,
    fun i k f e hi => by
      obtain ⟨l, x, h1, h2⟩ := e8 i k f e hi
      exact ⟨l, x, h1, fun hb => h2 (hB _ _ hb)⟩, e9, e10⟩

theorem ext_inv {g : G K E} {v : View (Op K E) (Res' E) (Pt K E)} {B B' : Nat → Nat → Prop} (h : Ext g v B) (i : Nat) (op : Op K E) (s : Pt K E)
    (hs : s = .start ∨ s = .remove ∨ s = .lock) (hv : v i = none)
    (hB : ∀ a b, B' a b → B a b ∨ (b = i ∧ ∃ op r, v a = some (op, .inr r))) (hf : g.fin i = none) : Ext g (upd v i (some (op, .inl s))) B' := by
  obtain ⟨b1, b2, e1, e2, e3, e4, e5, e6, e7, e8, e9, e10⟩ := h
  generalize hv' : upd v i _ = v'
  obtain ⟨u1, u2, u3⟩ := upd_facts hv'
  clear hv'
  constructor
  · clear * - u1 u2 u3 hv hB hs hf b1 
    grind [carries, held_append, closedLog_append]
  · clear * - u1 u2 u3 hv hB hs hf b2 
    grind [carries, held_append, closedLog_append]
  · clear * - u1 u2 u3 hv hB hs hf e1 
    grind [carries, held_append, closedLog_append]
  · clear * - u1 u2 u3 hv hB hs hf e2 
    grind [carries, held_append, closedLog_append]
  · clear * - u1 u2 u3 hv hB hs hf e3 
    grind [carries, held_append, closedLog_append]
  · clear * - u1 u2 u3 hv hB hs hf b1 b2 e4 e1 e2 b1
    simp only [Leads] at *
    grind [carries, held_append, closedLog_append]
  · clear * - u1 u2 u3 hv hB hs hf e5 
    simp only [Leads] at *
    grind [carries, held_append, closedLog_append]
  · clear * - u1 u2 u3 hv hB hs hf b1 b2 e6 b1
    grind [carries, held_append, closedLog_append]
  · clear * - u1 u2 u3 hv hB hs hf b1 b2 e7 e2 b1
    grind [carries, held_append, closedLog_append]
  · clear * - u1 u2 u3 hv hB hs hf b1 b2 e8 b1
    grind [carries, held_append, closedLog_append]
  · clear * - u1 u2 u3 hv hB hs hf e9 
    grind [carries, held_append, closedLog_append]
  · clear * - u1 u2 u3 hv hB hs hf e10 
    grind [carries, held_append, closedLog_append]

theorem x_join {cerr : Nat → Option E} {g : G K E} {v : View (Op K E) (Res' E) (Pt K E)} {B : Nat → Nat → Prop} (h : Ext g v B) (hI : Inv cerr g v) {i : Nat} {k : K} {f : Option E} {l : Nat} (hv : v i = some (.get k f, .inl .start)) (hl : g.flight k = some l) :
    Ext g (upd v i (some (.get k f, .inl (.wait l)))) B := by
  obtain ⟨f2, s2, hll, _⟩ := (hI.leader k l).1 hl
  obtain ⟨b1, b2, e1, e2, e3, e4, e5, e6, e7, e8, e9, e10⟩ := h
  generalize hv' : upd v i _ = v'
  obtain ⟨u1, u2, u3⟩ := upd_facts hv'
  clear hv'
  constructor
  · clear * - u1 u2 u3 hv hll b1 
    grind [carries, held_append, closedLog_append]
  · clear * - u1 u2 u3 hv hll b2 
    grind [carries, held_append, closedLog_append]
  · clear * - u1 u2 u3 hv hll e1 
    grind [carries, held_append, closedLog_append]
  · clear * - u1 u2 u3 hv hll e2 
    grind [carries, held_append, closedLog_append]
  · clear * - u1 u2 u3 hv hll e3 
    grind [carries, held_append, closedLog_append]
  · clear * - u1 u2 u3 hv hll b1 b2 e4 e1 e2 
    simp only [Leads] at *
    grind [carries, held_append, closedLog_append]
  · clear * - u1 u2 u3 hv hll e5 
    simp only [Leads] at *
    grind [carries, held_append, closedLog_append]
  · clear * - u1 u2 u3 hv hll b1 b2 e6 
    grind [carries, held_append, closedLog_append]
  · clear * - u1 u2 u3 hv hll b1 b2 e7 e2 
    grind [carries, held_append, closedLog_append]
  · clear * - u1 u2 u3 hv hll b1 b2 e8 
    grind [carries, held_append, closedLog_append]
  · clear * - u1 u2 u3 hv hll e9 
    grind [carries, held_append, closedLog_append]
  · clear * - u1 u2 u3 hv hll e10 
    grind [carries, held_append, closedLog_append]

theorem x_lead {cerr : Nat → Option E} {g : G K E} {v : View (Op K E) (Res' E) (Pt K E)} {B : Nat → Nat → Prop} (h : Ext g v B) (hI : Inv cerr g v) {i : Nat} {k : K} {f : Option E} (hv : v i = some (.get k f, .inl .start)) :
    Ext { g with flight := fun k' => if k' = k then some i else g.flight k' } (upd v i (some (.get k f, .inl .lookup))) B := by
  obtain ⟨b1, b2, e1, e2, e3, e4, e5, e6, e7, e8, e9, e10⟩ := h
  generalize hv' : upd v i _ = v'
  obtain ⟨u1, u2, u3⟩ := upd_facts hv'
  clear hv'
  constructor
  · clear * - u1 u2 u3 hv b1 
    grind [carries, held_append, closedLog_append]
  · clear * - u1 u2 u3 hv b2 
    grind [carries, held_append, closedLog_append]
  · clear * - u1 u2 u3 hv e1 
    grind [carries, held_append, closedLog_append]
  · clear * - u1 u2 u3 hv e2 
    grind [carries, held_append, closedLog_append]
  · clear * - u1 u2 u3 hv e3 
    grind [carries, held_append, closedLog_append]
  · clear * - u1 u2 u3 hv b1 b2 e4 e1 e2 
    simp only [Leads] at *
    grind [carries, held_append, closedLog_append]
  · clear * - u1 u2 u3 hv e5 
    simp only [Leads] at *
    grind [carries, held_append, closedLog_append]
  · clear * - u1 u2 u3 hv b1 b2 e6 
    grind [carries, held_append, closedLog_append]
  · clear * - u1 u2 u3 hv b1 b2 e7 e2 
    grind [carries, held_append, closedLog_append]
  · clear * - u1 u2 u3 hv b1 b2 e8 
    grind [carries, held_append, closedLog_append]
  · clear * - u1 u2 u3 hv e9 
    grind [carries, held_append, closedLog_append]
  · clear * - u1 u2 u3 hv e10 
    grind [carries, held_append, closedLog_append]

theorem x_wait {cerr : Nat → Option E} {g : G K E} {v : View (Op K E) (Res' E) (Pt K E)} {B : Nat → Nat → Prop} (h : Ext g v B) (hI : Inv cerr g v) {i : Nat} {k : K} {f : Option E} {l : Nat} {o : Outcome E} (hv : v i = some (.get k f, .inl (.wait l))) (hl : g.fin l = some o) :
    Ext g (upd v i (some (.get k f, .inr (.get o)))) B := by
  obtain ⟨⟨f2, x2, hll⟩, _⟩ := hI.wait i k f l hv
  have hw := hI.finView l o hl
  obtain ⟨b1, b2, e1, e2, e3, e4, e5, e6, e7, e8, e9, e10⟩ := h
  generalize hv' : upd v i _ = v'
  obtain ⟨u1, u2, u3⟩ := upd_facts hv'
  clear hv'
  constructor
  · clear * - u1 u2 u3 hv hl hll hw b1 
    grind [carries, held_append, closedLog_append]
  · clear * - u1 u2 u3 hv hl hll hw b2 
    grind [carries, held_append, closedLog_append]
  · clear * - u1 u2 u3 hv hl hll hw e1 
    grind [carries, held_append, closedLog_append]
  · clear * - u1 u2 u3 hv hl hll hw e2 
    grind [carries, held_append, closedLog_append]
  · clear * - u1 u2 u3 hv hl hll hw e3 
    grind [carries, held_append, closedLog_append]
  · clear * - u1 u2 u3 hv hl hll hw b1 b2 e4 e1 e2 
    simp only [Leads] at *
    grind [carries, held_append, closedLog_append]
  · clear * - u1 u2 u3 hv hl hll hw e5 
    simp only [Leads] at *
    grind [carries, held_append, closedLog_append]
  · clear * - u1 u2 u3 hv hl hll hw b1 b2 e6 
    grind [carries, held_append, closedLog_append]
  · clear * - u1 u2 u3 hv hl hll hw b1 b2 e7 e2 e4 e6
    simp only [Leads] at *
    grind [carries, held_append, closedLog_append]
  · intro j k' f' e hj
    by_cases hji : j = i
    · subst hji
      rw [u1] at hj
      simp only [Option.some.injEq, Prod.mk.injEq, Op.get.injEq, Sum.inr.injEq, Res'.get.injEq] at hj
      obtain ⟨⟨rfl, rfl⟩, rfl⟩ := hj
      have hf := e5 l k f2 e (Or.inr (Or.inr ⟨hl, x2, hll⟩))
      subst hf
      have hne : l ≠ j := by rintro rfl; rw [hv] at hll; grind
      exact ⟨l, x2, by rw [u2 l hne]; exact hll, e6 j k f l hv⟩
    · rw [u2 j hji] at hj
      obtain ⟨l', x, h1, h2⟩ := e8 j k' f' e hj
      rcases u3 l' _ h1 with rfl | h3
      · exact ⟨l', Sum.inr (.get o), by rw [u1]; grind, h2⟩
      · exact ⟨l', x, h3, h2⟩
  · clear * - u1 u2 u3 hv hl hll hw e9 hw
    grind [carries, held_append, closedLog_append]
  · clear * - u1 u2 u3 hv hl hll hw e10 
    grind [carries, held_append, closedLog_append]

theorem x_found {cerr : Nat → Option E} {g : G K E} {v : View (Op K E) (Res' E) (Pt K E)} {B : Nat → Nat → Prop} (h : Ext g v B) (hI : Inv cerr g v) {i : Nat} {k : K} {f : Option E} {l : List (K × Nat)} {r : Nat} (hv : v i = some (.get k f, .inl .lookup)) (hl : g.res = some l) (hr : find l k = some r) :
    Ext g (upd v i (some (.get k f, .inl (.finish (.got r))))) B := by
  have hh := (hI.findEq l k hl).symm.trans hr
  have hfin : g.fin i = none := by
    cases hf : g.fin i with
    | none => rfl
    | some o => obtain ⟨_, _, x, h1, h2⟩ := hI.finView i o hf; rw [hv] at h1; simp only [Option.some.injEq, Prod.mk.injEq] at h1; grind
  obtain ⟨b1, b2, e1, e2, e3, e4, e5, e6, e7, e8, e9, e10⟩ := h
  generalize hv' : upd v i _ = v'
  obtain ⟨u1, u2, u3⟩ := upd_facts hv'
  clear hv'
  constructor
  · clear * - u1 u2 u3 hv hh hfin b1 
    grind [carries, held_append, closedLog_append]
  · clear * - u1 u2 u3 hv hh hfin b2 
    grind [carries, held_append, closedLog_append]
  · clear * - u1 u2 u3 hv hh hfin e1 
    grind [carries, held_append, closedLog_append]
  · clear * - u1 u2 u3 hv hh hfin e2 
    grind [carries, held_append, closedLog_append]
  · clear * - u1 u2 u3 hv hh hfin e3 
    grind [carries, held_append, closedLog_append]
  · clear * - u1 u2 u3 hv hh hfin b1 b2 e4 e1 e2 hI
    simp only [Leads] at *
    grind [carries, held_append, closedLog_append]
  · clear * - u1 u2 u3 hv hh hfin e5 
    simp only [Leads] at *
    grind [carries, held_append, closedLog_append]
  · clear * - u1 u2 u3 hv hh hfin b1 b2 e6 
    grind [carries, held_append, closedLog_append]
  · clear * - u1 u2 u3 hv hh hfin b1 b2 e7 e2 
    grind [carries, held_append, closedLog_append]
  · clear * - u1 u2 u3 hv hh hfin b1 b2 e8 
    grind [carries, held_append, closedLog_append]
  · clear * - u1 u2 u3 hv hh hfin e9 
    grind [carries, held_append, closedLog_append]
  · clear * - u1 u2 u3 hv hh hfin e10 
    grind [carries, held_append, closedLog_append]

theorem x_absent {cerr : Nat → Option E} {g : G K E} {v : View (Op K E) (Res' E) (Pt K E)} {B : Nat → Nat → Prop} (h : Ext g v B) (hI : Inv cerr g v) {i : Nat} {k : K} {f : Option E} (hv : v i = some (.get k f, .inl .lookup)) :
    Ext g (upd v i (some (.get k f, .inl .create))) B := by
  obtain ⟨b1, b2, e1, e2, e3, e4, e5, e6, e7, e8, e9, e10⟩ := h
  generalize hv' : upd v i _ = v'
  obtain ⟨u1, u2, u3⟩ := upd_facts hv'
  clear hv'
  constructor
  · clear * - u1 u2 u3 hv b1 
    grind [carries, held_append, closedLog_append]
  · clear * - u1 u2 u3 hv b2 
    grind [carries, held_append, closedLog_append]
  · clear * - u1 u2 u3 hv e1 
    grind [carries, held_append, closedLog_append]
  · clear * - u1 u2 u3 hv e2 
    grind [carries, held_append, closedLog_append]
  · clear * - u1 u2 u3 hv e3 
    grind [carries, held_append, closedLog_append]
  · clear * - u1 u2 u3 hv b1 b2 e4 e1 e2 
    simp only [Leads] at *
    grind [carries, held_append, closedLog_append]
  · clear * - u1 u2 u3 hv e5 
    simp only [Leads] at *
    grind [carries, held_append, closedLog_append]
  · clear * - u1 u2 u3 hv b1 b2 e6 
    grind [carries, held_append, closedLog_append]
  · clear * - u1 u2 u3 hv b1 b2 e7 e2 
    grind [carries, held_append, closedLog_append]
  · clear * - u1 u2 u3 hv b1 b2 e8 
    grind [carries, held_append, closedLog_append]
  · clear * - u1 u2 u3 hv e9 
    grind [carries, held_append, closedLog_append]
  · clear * - u1 u2 u3 hv e10 
    grind [carries, held_append, closedLog_append]

theorem x_failed {cerr : Nat → Option E} {g : G K E} {v : View (Op K E) (Res' E) (Pt K E)} {B : Nat → Nat → Prop} (h : Ext g v B) (hI : Inv cerr g v) {i : Nat} {k : K} {e : E} (hv : v i = some (.get k (some e), .inl .create)) :
    Ext g (upd v i (some (.get k (some e), .inl (.finish (.failed e))))) B := by
  have hfin : g.fin i = none := by
    cases hf : g.fin i with
    | none => rfl
    | some o => obtain ⟨_, _, x, h1, h2⟩ := hI.finView i o hf; rw [hv] at h1; simp only [Option.some.injEq, Prod.mk.injEq] at h1; grind
  obtain ⟨b1, b2, e1, e2, e3, e4, e5, e6, e7, e8, e9, e10⟩ := h
  generalize hv' : upd v i _ = v'
  obtain ⟨u1, u2, u3⟩ := upd_facts hv'
  clear hv'
  constructor
  · clear * - u1 u2 u3 hv hfin b1 
    grind [carries, held_append, closedLog_append]
  · clear * - u1 u2 u3 hv hfin b2 
    grind [carries, held_append, closedLog_append]
  · clear * - u1 u2 u3 hv hfin e1 
    grind [carries, held_append, closedLog_append]
  · clear * - u1 u2 u3 hv hfin e2 
    grind [carries, held_append, closedLog_append]
  · clear * - u1 u2 u3 hv hfin e3 
    grind [carries, held_append, closedLog_append]
  · clear * - u1 u2 u3 hv hfin b1 b2 e4 e1 e2 
    simp only [Leads] at *
    grind [carries, held_append, closedLog_append]
  · clear * - u1 u2 u3 hv hfin e5 
    simp only [Leads] at *
    grind [carries, held_append, closedLog_append]
  · clear * - u1 u2 u3 hv hfin b1 b2 e6 
    grind [carries, held_append, closedLog_append]
  · clear * - u1 u2 u3 hv hfin b1 b2 e7 e2 
    grind [carries, held_append, closedLog_append]
  · clear * - u1 u2 u3 hv hfin b1 b2 e8 
    grind [carries, held_append, closedLog_append]
  · clear * - u1 u2 u3 hv hfin e9 
    grind [carries, held_append, closedLog_append]
  · clear * - u1 u2 u3 hv hfin e10 
    grind [carries, held_append, closedLog_append]

theorem x_create {cerr : Nat → Option E} {g : G K E} {v : View (Op K E) (Res' E) (Pt K E)} {B : Nat → Nat → Prop} (h : Ext g v B) (hI : Inv cerr g v) {i : Nat} {k : K} (hv : v i = some (.get k none, .inl .create)) :
    Ext { g with log := g.log ++ [.created k i] } (upd v i (some (.get k none, .inl .store))) B := by
  obtain ⟨b1, b2, e1, e2, e3, e4, e5, e6, e7, e8, e9, e10⟩ := h
  generalize hv' : upd v i _ = v'
  obtain ⟨u1, u2, u3⟩ := upd_facts hv'
  clear hv'
  constructor
  · clear * - u1 u2 u3 hv b1 
    grind [carries, held_append, closedLog_append]
  · clear * - u1 u2 u3 hv b2 
    grind [carries, held_append, closedLog_append]
  · clear * - u1 u2 u3 hv e1 
    grind [carries, held_append, closedLog_append]
  · clear * - u1 u2 u3 hv e2 
    grind [carries, held_append, closedLog_append]
  · clear * - u1 u2 u3 hv e3 
    grind [carries, held_append, closedLog_append]
  · clear * - u1 u2 u3 hv b1 b2 e4 e1 e2 
    simp only [Leads] at *
    grind [carries, held_append, closedLog_append]
  · clear * - u1 u2 u3 hv e5 
    simp only [Leads] at *
    grind [carries, held_append, closedLog_append]
  · clear * - u1 u2 u3 hv b1 b2 e6 
    grind [carries, held_append, closedLog_append]
  · clear * - u1 u2 u3 hv b1 b2 e7 e2 
    grind [carries, held_append, closedLog_append]
  · clear * - u1 u2 u3 hv b1 b2 e8 
    grind [carries, held_append, closedLog_append]
  · clear * - u1 u2 u3 hv e9 
    grind [carries, held_append, closedLog_append]
  · clear * - u1 u2 u3 hv e10 
    simp only [held_append, closedLog_append]
    grind [carries, held_append, closedLog_append]

theorem x_store {cerr : Nat → Option E} {g : G K E} {v : View (Op K E) (Res' E) (Pt K E)} {B : Nat → Nat → Prop} (h : Ext g v B) (hI : Inv cerr g v) {i : Nat} {k : K} {f : Option E} {l : List (K × Nat)} (hv : v i = some (.get k f, .inl .store)) (hl : g.res = some l) (hw : g.wlock = none) :
    Ext { g with res := some (insert l k i), log := g.log ++ [.stored k i] } (upd v i (some (.get k f, .inl (.finish (.got i))))) B := by
  have hfin : g.fin i = none := by
    cases hf : g.fin i with
    | none => rfl
    | some o => obtain ⟨_, _, x, h1, h2⟩ := hI.finView i o hf; rw [hv] at h1; simp only [Option.some.injEq, Prod.mk.injEq] at h1; grind
  have hst : g.remBy i = none := by
    cases hr : g.remBy i with
    | none => rfl
    | some c => obtain ⟨k', _, h2⟩ := h.remBy i c hr; obtain ⟨x, h3, h4, _⟩ := hI.storedView k' i h2; rw [hv] at h3; simp only [Option.some.injEq, Prod.mk.injEq] at h3; exact absurd h3.2.symm h4
  obtain ⟨b1, b2, e1, e2, e3, e4, e5, e6, e7, e8, e9, e10⟩ := h
  generalize hv' : upd v i _ = v'
  obtain ⟨u1, u2, u3⟩ := upd_facts hv'
  clear hv'
  constructor
  · clear * - u1 u2 u3 hv hl hw hfin hst b1 
    grind [carries, held_append, closedLog_append]
  · clear * - u1 u2 u3 hv hl hw hfin hst b2 
    grind [carries, held_append, closedLog_append]
  · clear * - u1 u2 u3 hv hl hw hfin hst e1 
    grind [carries, held_append, closedLog_append]
  · clear * - u1 u2 u3 hv hl hw hfin hst e2 
    grind [carries, held_append, closedLog_append]
  · clear * - u1 u2 u3 hv hl hw hfin hst e3 
    grind [carries, held_append, closedLog_append]
  · clear * - u1 u2 u3 hv hl hw hfin hst b1 b2 e4 e1 e2 
    simp only [Leads] at *
    grind [carries, held_append, closedLog_append]
  · clear * - u1 u2 u3 hv hl hw hfin hst e5 
    simp only [Leads] at *
    grind [carries, held_append, closedLog_append]
  · clear * - u1 u2 u3 hv hl hw hfin hst b1 b2 e6 
    grind [carries, held_append, closedLog_append]
  · clear * - u1 u2 u3 hv hl hw hfin hst b1 b2 e7 e2 
    grind [carries, held_append, closedLog_append]
  · clear * - u1 u2 u3 hv hl hw hfin hst b1 b2 e8 
    grind [carries, held_append, closedLog_append]
  · clear * - u1 u2 u3 hv hl hw hfin hst e9 
    grind [carries, held_append, closedLog_append]
  · clear * - u1 u2 u3 hv hl hw hfin hst e10 
    simp only [held_append, closedLog_append]
    grind [carries, held_append, closedLog_append]

theorem x_panic {cerr : Nat → Option E} {g : G K E} {v : View (Op K E) (Res' E) (Pt K E)} {B : Nat → Nat → Prop} (h : Ext g v B) (hI : Inv cerr g v) {i : Nat} {k : K} {f : Option E} (hv : v i = some (.get k f, .inl .store)) (hl : g.res = none) :
    Ext { g with wlock := some i } (upd v i (some (.get k f, .inl (.finish .panic)))) B := by
  have hfin : g.fin i = none := by
    cases hf : g.fin i with
    | none => rfl
    | some o => obtain ⟨_, _, x, h1, h2⟩ := hI.finView i o hf; rw [hv] at h1; simp only [Option.some.injEq, Prod.mk.injEq] at h1; grind
  obtain ⟨b1, b2, e1, e2, e3, e4, e5, e6, e7, e8, e9, e10⟩ := h
  generalize hv' : upd v i _ = v'
  obtain ⟨u1, u2, u3⟩ := upd_facts hv'
  clear hv'
  constructor
  · clear * - u1 u2 u3 hv hl hfin b1 
    grind [carries, held_append, closedLog_append]
  · clear * - u1 u2 u3 hv hl hfin b2 
    grind [carries, held_append, closedLog_append]
  · clear * - u1 u2 u3 hv hl hfin e1 
    grind [carries, held_append, closedLog_append]
  · clear * - u1 u2 u3 hv hl hfin e2 
    grind [carries, held_append, closedLog_append]
  · clear * - u1 u2 u3 hv hl hfin e3 
    grind [carries, held_append, closedLog_append]
  · clear * - u1 u2 u3 hv hl hfin b1 b2 e4 e1 e2 
    simp only [Leads] at *
    grind [carries, held_append, closedLog_append]
  · clear * - u1 u2 u3 hv hl hfin e5 
    simp only [Leads] at *
    grind [carries, held_append, closedLog_append]
  · clear * - u1 u2 u3 hv hl hfin b1 b2 e6 
    grind [carries, held_append, closedLog_append]
  · clear * - u1 u2 u3 hv hl hfin b1 b2 e7 e2 
    grind [carries, held_append, closedLog_append]
  · clear * - u1 u2 u3 hv hl hfin b1 b2 e8 
    grind [carries, held_append, closedLog_append]
  · clear * - u1 u2 u3 hv hl hfin e9 
    grind [carries, held_append, closedLog_append]
  · clear * - u1 u2 u3 hv hl hfin e10 
    grind [carries, held_append, closedLog_append]

theorem x_finish {cerr : Nat → Option E} {g : G K E} {v : View (Op K E) (Res' E) (Pt K E)} {B : Nat → Nat → Prop} (h : Ext g v B) (hI : Inv cerr g v) {i : Nat} {k : K} {f : Option E} {o : Outcome E} (hv : v i = some (.get k f, .inl (.finish o))) :
    Ext { g with fin := upd g.fin i (some o) } (upd v i (some (.get k f, .inl (.drop o)))) B := by
  obtain ⟨b1, b2, e1, e2, e3, e4, e5, e6, e7, e8, e9, e10⟩ := h
  generalize hv' : upd v i _ = v'
  obtain ⟨u1, u2, u3⟩ := upd_facts hv'
  clear hv'
  constructor
  · clear * - u1 u2 u3 hv b1 
    grind [carries, held_append, closedLog_append, upd]
  · clear * - u1 u2 u3 hv b2 
    grind [carries, held_append, closedLog_append, upd]
  · clear * - u1 u2 u3 hv e1 
    grind [carries, held_append, closedLog_append, upd]
  · clear * - u1 u2 u3 hv e2 
    grind [carries, held_append, closedLog_append, upd]
  · clear * - u1 u2 u3 hv e3 
    grind [carries, held_append, closedLog_append, upd]
  · clear * - u1 u2 u3 hv b1 b2 e4 e1 e2 
    simp only [Leads] at *
    grind [carries, held_append, closedLog_append, upd]
  · clear * - u1 u2 u3 hv e5 
    simp only [Leads] at *
    grind [carries, held_append, closedLog_append, upd]
  · clear * - u1 u2 u3 hv b1 b2 e6 
    grind [carries, held_append, closedLog_append, upd]
  · clear * - u1 u2 u3 hv b1 b2 e7 e2 
    grind [carries, held_append, closedLog_append, upd]
  · clear * - u1 u2 u3 hv b1 b2 e8 
    grind [carries, held_append, closedLog_append, upd]
  · clear * - u1 u2 u3 hv e9 
    grind [carries, held_append, closedLog_append, upd]
  · clear * - u1 u2 u3 hv e10 
    grind [carries, held_append, closedLog_append, upd]

theorem x_drop {cerr : Nat → Option E} {g : G K E} {v : View (Op K E) (Res' E) (Pt K E)} {B : Nat → Nat → Prop} (h : Ext g v B) (hI : Inv cerr g v) {i : Nat} {k : K} {f : Option E} {o : Outcome E} (hv : v i = some (.get k f, .inl (.drop o))) :
    Ext { g with flight := fun k' => if k' = k then none else g.flight k' } (upd v i (some (.get k f, .inr (.get o)))) B := by
  obtain ⟨b1, b2, e1, e2, e3, e4, e5, e6, e7, e8, e9, e10⟩ := h
  generalize hv' : upd v i _ = v'
  obtain ⟨u1, u2, u3⟩ := upd_facts hv'
  clear hv'
  constructor
  · clear * - u1 u2 u3 hv b1 
    grind [carries, held_append, closedLog_append]
  · clear * - u1 u2 u3 hv b2 
    grind [carries, held_append, closedLog_append]
  · clear * - u1 u2 u3 hv e1 
    grind [carries, held_append, closedLog_append]
  · clear * - u1 u2 u3 hv e2 
    grind [carries, held_append, closedLog_append]
  · clear * - u1 u2 u3 hv e3 
    grind [carries, held_append, closedLog_append]
  · clear * - u1 u2 u3 hv b1 b2 e4 e1 e2 
    simp only [Leads] at *
    grind [carries, held_append, closedLog_append]
  · clear * - u1 u2 u3 hv e5 
    simp only [Leads] at *
    grind [carries, held_append, closedLog_append]
  · clear * - u1 u2 u3 hv b1 b2 e6 
    grind [carries, held_append, closedLog_append]
  · clear * - u1 u2 u3 hv b1 b2 e7 e2 e4 hv
    simp only [Leads] at *
    grind [carries, held_append, closedLog_append]
  · clear * - u1 u2 u3 hv b1 b2 e8 e5 hv
    simp only [Leads] at *
    grind [carries, held_append, closedLog_append]
  · clear * - u1 u2 u3 hv e9 
    grind [carries, held_append, closedLog_append]
  · clear * - u1 u2 u3 hv e10 
    grind [carries, held_append, closedLog_append]

theorem x_rem0 {cerr : Nat → Option E} {g : G K E} {v : View (Op K E) (Res' E) (Pt K E)} {B : Nat → Nat → Prop} (h : Ext g v B) (hI : Inv cerr g v) {i : Nat} {k : K} (hv : v i = some (.remove k, .inl .remove)) :
    Ext g (upd v i (some (.remove k, .inr (.removed false)))) B := by
  obtain ⟨b1, b2, e1, e2, e3, e4, e5, e6, e7, e8, e9, e10⟩ := h
  generalize hv' : upd v i _ = v'
  obtain ⟨u1, u2, u3⟩ := upd_facts hv'
  clear hv'
  constructor
  · clear * - u1 u2 u3 hv b1 
    grind [carries, held_append, closedLog_append]
  · clear * - u1 u2 u3 hv b2 
    grind [carries, held_append, closedLog_append]
  · clear * - u1 u2 u3 hv e1 
    grind [carries, held_append, closedLog_append]
  · clear * - u1 u2 u3 hv e2 
    grind [carries, held_append, closedLog_append]
  · clear * - u1 u2 u3 hv e3 
    grind [carries, held_append, closedLog_append]
  · clear * - u1 u2 u3 hv b1 b2 e4 e1 e2 
    simp only [Leads] at *
    grind [carries, held_append, closedLog_append]
  · clear * - u1 u2 u3 hv e5 
    simp only [Leads] at *
    grind [carries, held_append, closedLog_append]
  · clear * - u1 u2 u3 hv b1 b2 e6 
    grind [carries, held_append, closedLog_append]
  · clear * - u1 u2 u3 hv b1 b2 e7 e2 
    grind [carries, held_append, closedLog_append]
  · clear * - u1 u2 u3 hv b1 b2 e8 
    grind [carries, held_append, closedLog_append]
  · clear * - u1 u2 u3 hv e9 
    grind [carries, held_append, closedLog_append]
  · clear * - u1 u2 u3 hv e10 
    grind [carries, held_append, closedLog_append]

theorem x_rem1 {cerr : Nat → Option E} {g : G K E} {v : View (Op K E) (Res' E) (Pt K E)} {B : Nat → Nat → Prop} (h : Ext g v B) (hI : Inv cerr g v) {i : Nat} {k : K} {l : List (K × Nat)} {r : Nat} (hv : v i = some (.remove k, .inl .remove)) (hl : g.res = some l) (hr : find l k = some r) :
    Ext { g with res := some (erase l k), log := g.log ++ [.removed k r], remBy := upd g.remBy r (some i) } (upd v i (some (.remove k, .inr (.removed true)))) B := by
  have hh := (hI.findEq l k hl).symm.trans hr
  have hst := hI.heldStored k r hh
  have hun : ∀ k', held k' g.log = some r → k' = k := by
    intro k' hk'
    obtain ⟨x1, h1, _⟩ := hI.storedView k r hst
    obtain ⟨x2, h2, _⟩ := hI.storedView k' r (hI.heldStored k' r hk')
    rw [h1] at h2; simp at h2; exact h2.1.symm
  obtain ⟨b1, b2, e1, e2, e3, e4, e5, e6, e7, e8, e9, e10⟩ := h
  generalize hv' : upd v i _ = v'
  obtain ⟨u1, u2, u3⟩ := upd_facts hv'
  clear hv'
  constructor
  · clear * - u1 u2 u3 hv hl hh hst hun b1 
    grind [carries, held_append, closedLog_append, upd]
  · clear * - u1 u2 u3 hv hl hh hst hun b2 
    grind [carries, held_append, closedLog_append, upd]
  · clear * - u1 u2 u3 hv hl hh hst hun e1 
    grind [carries, held_append, closedLog_append, upd]
  · clear * - u1 u2 u3 hv hl hh hst hun e2 
    grind [carries, held_append, closedLog_append, upd]
  · clear * - u1 u2 u3 hv hl hh hst hun e3 e1
    grind [carries, held_append, closedLog_append, upd]
  · clear * - u1 u2 u3 hv hl hh hst hun b1 b2 e4 e1 e2 
    simp only [Leads] at *
    grind [carries, held_append, closedLog_append, upd]
  · clear * - u1 u2 u3 hv hl hh hst hun e5 
    simp only [Leads] at *
    grind [carries, held_append, closedLog_append, upd]
  · clear * - u1 u2 u3 hv hl hh hst hun b1 b2 e6 
    grind [carries, held_append, closedLog_append, upd]
  · clear * - u1 u2 u3 hv hl hh hst hun b1 b2 e7 e2 hv
    grind [carries, held_append, closedLog_append, upd]
  · clear * - u1 u2 u3 hv hl hh hst hun b1 b2 e8 
    grind [carries, held_append, closedLog_append, upd]
  · clear * - u1 u2 u3 hv hl hh hst hun e9 
    grind [carries, held_append, closedLog_append, upd]
  · clear * - u1 u2 u3 hv hl hh hst hun e10 
    simp only [held_append, closedLog_append]
    grind [carries, held_append, closedLog_append, upd]

theorem x_lock {cerr : Nat → Option E} {g : G K E} {v : View (Op K E) (Res' E) (Pt K E)} {B : Nat → Nat → Prop} (h : Ext g v B) (hI : Inv cerr g v) {i : Nat} (hv : v i = some (.close, .inl .lock)) {a : Nat → List (K × Nat)} {b : Nat → List Nat} {c : Nat → List (LogEv K)} {todo : List (K × Nat)} {be : BatchError E} :
    Ext { g with wlock := some i, heldAt := a, closedBy := b, logAt := c } (upd v i (some (.close, .inl (.closing todo be)))) B := by
  obtain ⟨b1, b2, e1, e2, e3, e4, e5, e6, e7, e8, e9, e10⟩ := h
  generalize hv' : upd v i _ = v'
  obtain ⟨u1, u2, u3⟩ := upd_facts hv'
  clear hv'
  constructor
  · clear * - u1 u2 u3 hv b1 
    grind [carries, held_append, closedLog_append]
  · clear * - u1 u2 u3 hv b2 
    grind [carries, held_append, closedLog_append]
  · clear * - u1 u2 u3 hv e1 
    grind [carries, held_append, closedLog_append]
  · clear * - u1 u2 u3 hv e2 
    grind [carries, held_append, closedLog_append]
  · clear * - u1 u2 u3 hv e3 
    grind [carries, held_append, closedLog_append]
  · clear * - u1 u2 u3 hv b1 b2 e4 e1 e2 
    simp only [Leads] at *
    grind [carries, held_append, closedLog_append]
  · clear * - u1 u2 u3 hv e5 
    simp only [Leads] at *
    grind [carries, held_append, closedLog_append]
  · clear * - u1 u2 u3 hv b1 b2 e6 
    grind [carries, held_append, closedLog_append]
  · clear * - u1 u2 u3 hv b1 b2 e7 e2 
    grind [carries, held_append, closedLog_append]
  · clear * - u1 u2 u3 hv b1 b2 e8 
    grind [carries, held_append, closedLog_append]
  · clear * - u1 u2 u3 hv e9 
    grind [carries, held_append, closedLog_append]
  · clear * - u1 u2 u3 hv e10 
    grind [carries, held_append, closedLog_append]

theorem x_pick {cerr : Nat → Option E} {g : G K E} {v : View (Op K E) (Res' E) (Pt K E)} {B : Nat → Nat → Prop} (h : Ext g v B) (hI : Inv cerr g v) {i : Nat} {todo todo' : List (K × Nat)} {be be' : BatchError E} (hv : v i = some (.close, .inl (.closing todo be))) {x : K × Nat} (hx : x ∈ todo) {b : Nat → List Nat} :
    Ext { g with log := g.log ++ [.closed x.2], closedBy := b } (upd v i (some (.close, .inl (.closing todo' be')))) B := by
  have hres : g.res ≠ none := by
    intro hr
    obtain ⟨_, c2, c3, _⟩ := hI.closing i todo be hv
    rw [hr, Option.getD_none] at c2
    rw [← c2] at c3
    have := List.Perm.length_eq c3
    have h0 : todo.length = 0 := by simp at this ⊢; exact this.2
    rw [List.length_eq_zero_iff] at h0
    rw [h0] at hx; simp at hx
  obtain ⟨b1, b2, e1, e2, e3, e4, e5, e6, e7, e8, e9, e10⟩ := h
  generalize hv' : upd v i _ = v'
  obtain ⟨u1, u2, u3⟩ := upd_facts hv'
  clear hv'
  constructor
  · clear * - u1 u2 u3 hv hres b1 
    grind [carries, held_append, closedLog_append]
  · clear * - u1 u2 u3 hv hres b2 
    grind [carries, held_append, closedLog_append]
  · clear * - u1 u2 u3 hv hres e1 
    grind [carries, held_append, closedLog_append]
  · clear * - u1 u2 u3 hv hres e2 
    grind [carries, held_append, closedLog_append]
  · clear * - u1 u2 u3 hv hres e3 
    grind [carries, held_append, closedLog_append]
  · clear * - u1 u2 u3 hv hres b1 b2 e4 e1 e2 
    simp only [Leads] at *
    grind [carries, held_append, closedLog_append]
  · clear * - u1 u2 u3 hv hres e5 
    simp only [Leads] at *
    grind [carries, held_append, closedLog_append]
  · clear * - u1 u2 u3 hv hres b1 b2 e6 
    grind [carries, held_append, closedLog_append]
  · clear * - u1 u2 u3 hv hres b1 b2 e7 e2 
    grind [carries, held_append, closedLog_append]
  · clear * - u1 u2 u3 hv hres b1 b2 e8 
    grind [carries, held_append, closedLog_append]
  · clear * - u1 u2 u3 hv hres e9 
    grind [carries, held_append, closedLog_append]
  · clear * - u1 u2 u3 hv hres e10 
    simp only [held_append, closedLog_append]
    grind [carries, held_append, closedLog_append]

theorem x_unlock {cerr : Nat → Option E} {g : G K E} {v : View (Op K E) (Res' E) (Pt K E)} {B : Nat → Nat → Prop} (h : Ext g v B) (hI : Inv cerr g v) {i : Nat} {be : BatchError E} {r : Res' E} (hv : v i = some (.close, .inl (.closing [] be))) :
    Ext { g with res := none, wlock := none } (upd v i (some (.close, .inr r))) B := by
  have hch : ∀ r, r ∈ closedLog g.log ↔ ∃ k, held k g.log = some r := by
    obtain ⟨_, c2, c3, _, c5⟩ := hI.closing i [] be hv
    cases hres : g.res with
    | none => exact h.closedHeld hres
    | some l =>
      intro r
      rw [c5 (by simp [hres])]
      simp only [List.map_nil, List.append_nil] at c3
      rw [c3.mem_iff, ← c2, hres, Option.getD_some, List.mem_map]
      constructor
      · rintro ⟨⟨k, r'⟩, hm, rfl⟩
        exact ⟨k, by rw [← hI.findEq l k hres]; exact find_of_mem (hI.keys l hres) hm⟩
      · rintro ⟨k, hk⟩
        rw [← hI.findEq l k hres] at hk
        exact ⟨(k, r), find_mem hk, rfl⟩
  obtain ⟨b1, b2, e1, e2, e3, e4, e5, e6, e7, e8, e9, e10⟩ := h
  generalize hv' : upd v i _ = v'
  obtain ⟨u1, u2, u3⟩ := upd_facts hv'
  clear hv'
  constructor
  · clear * - u1 u2 u3 hv b1 
    grind [carries, held_append, closedLog_append]
  · clear * - u1 u2 u3 hv b2 
    grind [carries, held_append, closedLog_append]
  · clear * - u1 u2 u3 hv e1 
    grind [carries, held_append, closedLog_append]
  · clear * - u1 u2 u3 hv e2 
    grind [carries, held_append, closedLog_append]
  · clear * - u1 u2 u3 hv e3 
    grind [carries, held_append, closedLog_append]
  · clear * - u1 u2 u3 hv b1 b2 e4 e1 e2 
    simp only [Leads] at *
    grind [carries, held_append, closedLog_append]
  · clear * - u1 u2 u3 hv e5 
    simp only [Leads] at *
    grind [carries, held_append, closedLog_append]
  · clear * - u1 u2 u3 hv b1 b2 e6 
    grind [carries, held_append, closedLog_append]
  · clear * - u1 u2 u3 hv b1 b2 e7 e2 
    grind [carries, held_append, closedLog_append]
  · clear * - u1 u2 u3 hv b1 b2 e8 
    grind [carries, held_append, closedLog_append]
  · clear * - u1 u2 u3 hv e9 
    grind [carries, held_append, closedLog_append]
  · exact fun _ => hch

theorem ext_step {cerr : Nat → Option E} {g : G K E} {v : View (Op K E) (Res' E) (Pt K E)} {B : Nat → Nat → Prop} (h : Ext g v B) (hI : Inv cerr g v) {i : Nat} {op : Op K E} {s : Pt K E} {c : Nat}
    (hv : v i = some (op, .inl s)) {g' : G K E} {x : Pt K E ⊕ Res' E} (hs : (prog cerr).step g i op s c = some (g', x)) :
    Ext g' (upd v i (some (op, x))) B := by
  simp only [prog] at hs
  have hnone : ∀ {o : Option Nat}, ¬ (o.isSome = true) → o = none := by intro o ho; cases o <;> simp_all
  cases op with
  | get k f =>
    simp only at hs
    unfold getStep at hs
    split at hs
    · split at hs <;> simp only [Option.some.injEq, Prod.mk.injEq] at hs <;> obtain ⟨rfl, rfl⟩ := hs
      · exact x_join h hI hv (by assumption)
      · exact x_lead h hI hv
    · split at hs
      · simp only [Option.some.injEq, Prod.mk.injEq] at hs; obtain ⟨rfl, rfl⟩ := hs
        exact x_wait h hI hv (by assumption)
      · simp at hs
    · split at hs
      · simp at hs
      · split at hs <;> simp only [Option.some.injEq, Prod.mk.injEq] at hs <;> obtain ⟨rfl, rfl⟩ := hs
        · rename_i hr
          cases hres : g.res with
          | none => rw [hres] at hr; simp at hr
          | some l => rw [hres] at hr; exact x_found h hI hv hres hr
        · rename_i hr
          exact x_absent h hI hv
    · split at hs <;> simp only [Option.some.injEq, Prod.mk.injEq] at hs <;> obtain ⟨rfl, rfl⟩ := hs
      · exact x_failed h hI hv
      · exact x_create h hI hv
    · split at hs
      · simp at hs
      · rename_i hw
        split at hs <;> simp only [Option.some.injEq, Prod.mk.injEq] at hs <;> obtain ⟨rfl, rfl⟩ := hs
        · exact x_panic h hI hv (by assumption)
        · exact x_store h hI hv (by assumption) (hnone hw)
    · simp only [Option.some.injEq, Prod.mk.injEq] at hs; obtain ⟨rfl, rfl⟩ := hs
      exact x_finish h hI hv
    · simp only [Option.some.injEq, Prod.mk.injEq] at hs; obtain ⟨rfl, rfl⟩ := hs
      exact x_drop h hI hv
    · simp at hs
  | remove k =>
    simp only at hs
    unfold removeStep at hs
    split at hs
    · split at hs
      · simp at hs
      · rename_i hw
        split at hs
        · simp only [Option.some.injEq, Prod.mk.injEq] at hs; obtain ⟨rfl, rfl⟩ := hs
          exact x_rem0 h hI hv
        · split at hs <;> simp only [Option.some.injEq, Prod.mk.injEq] at hs <;> obtain ⟨rfl, rfl⟩ := hs
          · exact x_rem1 h hI hv (by assumption) (by assumption)
          · exact x_rem0 h hI hv
    · simp at hs
  | close =>
    simp only at hs
    unfold closeStep at hs
    split at hs
    · split at hs
      · simp at hs
      · rename_i hw
        simp only [Option.some.injEq, Prod.mk.injEq] at hs; obtain ⟨rfl, rfl⟩ := hs
        exact x_lock h hI hv
    · split at hs
      · simp only [Option.some.injEq, Prod.mk.injEq] at hs; obtain ⟨rfl, rfl⟩ := hs
        exact x_unlock h hI hv
      · split at hs
        · simp at hs
        · simp only [Option.some.injEq, Prod.mk.injEq] at hs; obtain ⟨rfl, rfl⟩ := hs
          exact x_pick h hI hv (List.mem_of_getElem? (by assumption))
    · simp at hs

/-- All invariants and the relation to the history hold in every reachable state. -/
theorem ext_exec (cerr : Nat → Option E) {m : Conf (G K E) (Op K E) (Res' E) (Pt K E)} {H : List (Ev (Op K E) (Res' E))}
    (h : (prog cerr).mach.Exec m H) : Inv cerr m.g m.view ∧ Ext m.g m.view (Before H) := by
  suffices hh : Inv cerr m.g m.view ∧ Ext m.g m.view (Before H) ∧ ∀ i r, Ev.ret i r ∈ H → ∃ op, m.view i = some (op, .inr r) from ⟨hh.1, hh.2.1⟩
  refine (prog cerr).induct (fun g v H => Inv cerr g v ∧ Ext g v (Before H) ∧ ∀ i r, Ev.ret i r ∈ H → ∃ op, v i = some (op, .inr r)) ?_ ?_ ?_ ?_ h
  · exact ⟨inv_init cerr, ext_frame ext_init (fun a b hb => by obtain ⟨⟨r, hr⟩, _⟩ := before_mem hb; simp at hr), by simp⟩
  · rintro g v H i op ⟨hi, hx, hr⟩ hv
    refine ⟨inv_inv hi i op hv, ext_inv hx i op _ ?_ hv ?_ ?_, ?_⟩
    · cases op <;> simp [prog]
    · intro a b hb
      rcases before_append hb with hb | ⟨op', r, he, hm⟩
      · exact Or.inl hb
      · simp only [Ev.inv.injEq] at he
        obtain ⟨op2, h2⟩ := hr a r hm
        exact Or.inr ⟨he.1.symm, op2, r, h2⟩
    · cases hf : g.fin i with
      | none => rfl
      | some o => obtain ⟨_, _, x, h1, _⟩ := hi.finView i o hf; rw [hv] at h1; simp at h1
    · intro j r hj
      simp only [List.mem_append, List.mem_singleton, reduceCtorEq, or_false] at hj
      obtain ⟨op', h'⟩ := hr j r hj
      exact ⟨op', by rw [upd_ne _ _ (by rintro rfl; rw [hv] at h'; simp at h')]; exact h'⟩
  · rintro g v H i op s c g' x ⟨hi, hx, hr⟩ hv hs
    refine ⟨inv_step hi hv hs, ext_step hx hi hv hs, fun j r hj => ?_⟩
    obtain ⟨op', h'⟩ := hr j r hj
    exact ⟨op', by rw [upd_ne _ _ (by rintro rfl; rw [hv] at h'; simp at h')]; exact h'⟩
  · rintro g v H i op r ⟨hi, hx, hr⟩ hv
    refine ⟨hi, ext_frame hx ?_, fun j r' hj => ?_⟩
    · intro a b hb
      rcases before_append hb with hb | ⟨_, _, he, _⟩
      · exact hb
      · simp at he
    · simp only [List.mem_append, List.mem_singleton, Ev.ret.injEq] at hj
      rcases hj with hj | ⟨rfl, rfl⟩
      · exact hr j r' hj
      · exact ⟨op, hv⟩

end Verif.XSync.ResMan

import Verif.Model.CSig
import Verif.Proofs.HashCons
import Mathlib.Data.List.Perm.Basic
import Mathlib.Tactic.Common
/-! Lemmas on canonical signatures. -/
namespace Aps.CSig
open Aps.HashCons Aps.CType

theorem actualsEqual_iff : ∀ a b : List Nat, a.length = b.length → (actualsEqual a b = true ↔ a = b)
  | [], [], _ => by simp [actualsEqual]
  | [], _ :: _, h => by simp at h
  | _ :: _, [], h => by simp at h
  | a :: as, b :: bs, h => by
    rw [actualsEqual]
    by_cases e : a = b
    · simp [e, actualsEqual_iff as bs (by simpa using h)]
    · simp [e]

theorem sigEqual_iff (s u : SigObj) : sigEqual s u = true ↔ s = u := by
  unfold sigEqual
  obtain ⟨i, v, c, a⟩ := s
  obtain ⟨i', v', c', a'⟩ := u
  by_cases e : a.length = a'.length
  · simp only [ne_eq, e, not_true_eq_false, if_false, Bool.and_eq_true, decide_eq_true_eq, actualsEqual_iff a a' e, SigObj.mk.injEq]
    tauto
  · simp only [ne_eq, e, not_false_eq_true, if_true, Bool.false_eq_true, SigObj.mk.injEq, false_iff]
    rintro ⟨-, -, -, rfl⟩; exact e rfl

theorem sigOps_lawful (th : Nat → BitVec 64) : (sigOps th).Lawful := by
  constructor
  · intro a; exact (sigEqual_iff a a).2 rfl
  · intro a b h; exact (sigEqual_iff b a).2 ((sigEqual_iff a b).1 h).symm
  · intro a b c h1 h2; exact (sigEqual_iff a c).2 (((sigEqual_iff a b).1 h1).trans ((sigEqual_iff b c).1 h2))
  · intro a b h; rw [(sigEqual_iff a b).1 h]

/-! ## order -/

/-- A comparison that is a total preorder on the elements of `S`. -/
structure Pre {α : Type} (S : α → Prop) (c : α → α → Int) : Prop where
  refl : ∀ a, S a → c a a = 0
  neg : ∀ a b, S a → S b → c b a = - c a b
  trans : ∀ a b d, S a → S b → S d → c a b ≤ 0 → c b d ≤ 0 → c a d ≤ 0

theorem Pre.zero {α : Type} {S : α → Prop} {c : α → α → Int} (p : Pre S c) {a b d : α} (ha : S a) (hb : S b) (hd : S d)
    (h1 : c a b ≤ 0) (h2 : c b d ≤ 0) (h3 : c a d = 0) : c a b = 0 ∧ c b d = 0 := by
  have n1 := p.neg a d ha hd
  have n2 := p.neg a b ha hb
  have n3 := p.neg b d hb hd
  have := p.trans b d a hb hd ha h2 (by omega)
  have := p.trans d a b hd ha hb (by omega) h1
  omega

/-- first by `c1`, then by `c2` -/
def lex {α : Type} (c1 c2 : α → α → Int) (a b : α) : Int := if c1 a b ≠ 0 then c1 a b else c2 a b

theorem Pre.lex {α : Type} {S : α → Prop} {c1 c2 : α → α → Int} (p : Pre S c1) (refl : ∀ a, S a → c2 a a = 0)
    (neg : ∀ a b, S a → S b → c1 a b = 0 → c2 b a = - c2 a b)
    (trans : ∀ a b d, S a → S b → S d → c1 a b = 0 → c1 b d = 0 → c2 a b ≤ 0 → c2 b d ≤ 0 → c2 a d ≤ 0) : Pre S (CSig.lex c1 c2) where
  refl a ha := by simp [CSig.lex, p.refl a ha, refl a ha]
  neg a b ha hb := by
    have := p.neg a b ha hb
    unfold CSig.lex
    by_cases e : c1 a b = 0
    · simp [e, this, neg a b ha hb e]
    · have : c1 b a ≠ 0 := by omega
      simp [e, this, p.neg a b ha hb]
  trans a b d ha hb hd h1 h2 := by
    unfold CSig.lex at *
    have k1 : c1 a b ≤ 0 := by by_cases e : c1 a b = 0 <;> simp [e] at h1 ⊢; exact h1
    have k2 : c1 b d ≤ 0 := by by_cases e : c1 b d = 0 <;> simp [e] at h2 ⊢; exact h2
    have k3 := p.trans a b d ha hb hd k1 k2
    by_cases e : c1 a d = 0
    · obtain ⟨e1, e2⟩ := p.zero ha hb hd k1 k2 e
      simp only [e1, e2, e, ne_eq, not_true_eq_false, if_false] at h1 h2 ⊢
      exact trans a b d ha hb hd e1 e2 h1 h2
    · simpa [e] using k3

/-- by the first elements that differ -/
def lexList (c : Nat → Nat → Int) : List Nat → List Nat → Int
  | a :: as, b :: bs => if c a b ≠ 0 then c a b else lexList c as bs
  | _, _ => 0

theorem lexList_refl {S : Nat → Prop} {c : Nat → Nat → Int} (p : Pre S c) : ∀ l : List Nat, (∀ a ∈ l, S a) → lexList c l l = 0
  | [], _ => rfl
  | a :: l, h => by
    rw [List.forall_mem_cons] at h
    simp [lexList, p.refl a h.1, lexList_refl p l h.2]

theorem lexList_neg {S : Nat → Prop} {c : Nat → Nat → Int} (p : Pre S c) : ∀ l m : List Nat, (∀ a ∈ l, S a) → (∀ a ∈ m, S a) →
    lexList c m l = - lexList c l m
  | [], [], _, _ => rfl
  | [], _ :: _, _, _ => rfl
  | _ :: _, [], _, _ => rfl
  | a :: l, b :: m, h, k => by
    rw [List.forall_mem_cons] at h k
    have n := p.neg a b h.1 k.1
    simp only [lexList]
    by_cases e : c a b = 0
    · simp [e, n, lexList_neg p l m h.2 k.2]
    · have : c b a ≠ 0 := by omega
      simp [e, this, n]

theorem lexList_trans {S : Nat → Prop} {c : Nat → Nat → Int} (p : Pre S c) : ∀ l m n : List Nat, (∀ a ∈ l, S a) → (∀ a ∈ m, S a) →
    (∀ a ∈ n, S a) → l.length = m.length → m.length = n.length → lexList c l m ≤ 0 → lexList c m n ≤ 0 → lexList c l n ≤ 0
  | [], _, _, _, _, _, _, _, _, _ => by simp [lexList]
  | _ :: _, [], _, _, _, _, h, _, _, _ => by simp at h
  | _ :: _, _ :: _, [], _, _, _, _, _, _, _ => by simp [lexList]
  | a :: l, b :: m, d :: n, h, k, j, e1, e2, h1, h2 => by
    rw [List.forall_mem_cons] at h k j
    simp only [List.length_cons, Nat.add_right_cancel_iff] at e1 e2
    simp only [lexList] at h1 h2 ⊢
    have k1 : c a b ≤ 0 := by by_cases e : c a b = 0 <;> simp [e] at h1 ⊢; exact h1
    have k2 : c b d ≤ 0 := by by_cases e : c b d = 0 <;> simp [e] at h2 ⊢; exact h2
    have k3 := p.trans a b d h.1 k.1 j.1 k1 k2
    by_cases e : c a d = 0
    · obtain ⟨z1, z2⟩ := p.zero h.1 k.1 j.1 k1 k2 e
      simp only [z1, z2, e, ne_eq, not_true_eq_false, if_false] at h1 h2 ⊢
      exact lexList_trans p l m n h.2 k.2 j.2 e1 e2 h1 h2
    · simpa [e] using k3

theorem lexList_zero {c : Nat → Nat → Int} : ∀ l m : List Nat, (∀ a ∈ l, ∀ b ∈ m, c a b = 0 → a = b) → l.length = m.length →
    lexList c l m = 0 → l = m
  | [], [], _, _, _ => rfl
  | [], _ :: _, _, h, _ => by simp at h
  | _ :: _, [], _, h, _ => by simp at h
  | a :: l, b :: m, h, e, h0 => by
    simp only [lexList] at h0
    have z : c a b = 0 := by by_contra z; simp [z] at h0
    simp only [z, ne_eq, not_true_eq_false, if_false] at h0
    rw [h a (by simp) b (by simp) z,
      lexList_zero l m (fun x hx y hy => h x (by simp [hx]) y (by simp [hy])) (by simpa using e) h0]

/-- the comparison of signatures, without failures -/
def cmpSig (line : Nat → Int) (c : Nat → Nat → Int) : SigObj → SigObj → Int :=
  lex (lex (lex (lex (fun s u => bit s.input - bit u.input) (fun s u => bit s.var - bit u.var)) (fun s u => line s.cls - line u.cls))
    (fun s u => (s.actuals.length : Int) - u.actuals.length)) (fun s u => lexList c s.actuals u.actuals)

theorem lex_zero {α : Type} {c1 c2 : α → α → Int} {a b : α} : lex c1 c2 a b = 0 ↔ c1 a b = 0 ∧ c2 a b = 0 := by
  unfold lex; by_cases e : c1 a b = 0 <;> simp [e]

theorem bit_sub {a b : Bool} : bit a - bit b = 0 ↔ a = b := by cases a <;> cases b <;> simp [bit]

theorem Pre.sub {α : Type} {S : α → Prop} (f : α → Int) : Pre S (fun a b => f a - f b) where
  refl a _ := by simp
  neg a b _ _ := by omega
  trans a b d _ _ _ h1 h2 := by omega

theorem Pre.lex' {α : Type} {S : α → Prop} {c1 c2 : α → α → Int} (p : Pre S c1) (q : Pre S c2) : Pre S (CSig.lex c1 c2) :=
  p.lex q.refl (fun a b ha hb _ => q.neg a b ha hb) (fun a b d ha hb hd _ _ h1 h2 => q.trans a b d ha hb hd h1 h2)

/-- The actuals of the signature are among these types. -/
def Over (as : List Nat) (s : SigObj) : Prop := ∀ a ∈ s.actuals, a ∈ as

theorem cmpSig_pre {line : Nat → Int} {c : Nat → Nat → Int} {as : List Nat} (p : Pre (· ∈ as) c) : Pre (Over as) (cmpSig line c) := by
  have q : Pre (Over as) (lex (lex (lex (fun s u : SigObj => bit s.input - bit u.input) (fun s u => bit s.var - bit u.var))
      (fun s u => line s.cls - line u.cls)) (fun s u => (s.actuals.length : Int) - u.actuals.length)) :=
    (((Pre.sub _).lex' (Pre.sub _)).lex' (Pre.sub _)).lex' (Pre.sub (fun s : SigObj => (s.actuals.length : Int)))
  refine q.lex ?_ ?_ ?_
  · intro a ha; exact lexList_refl p _ ha
  · intro a b ha hb _; exact lexList_neg p _ _ ha hb
  · intro a b d ha hb hd h1 h2
    have := (lex_zero.1 h1).2
    have := (lex_zero.1 h2).2
    exact lexList_trans p _ _ _ ha hb hd (by omega) (by omega)

theorem actualsCompare_spec {tc : Nat → Nat → Res Int} {c : Nat → Nat → Int} {as : List Nat} (h : ∀ a ∈ as, ∀ b ∈ as, tc a b = .ok (c a b)) :
    ∀ l m : List Nat, (∀ a ∈ l, a ∈ as) → (∀ a ∈ m, a ∈ as) → actualsCompare tc l m = .ok (lexList c l m)
  | [], _, _, _ => by simp [actualsCompare, lexList]
  | _ :: _, [], _, _ => by simp [actualsCompare, lexList]
  | a :: l, b :: m, hl, hm => by
    rw [List.forall_mem_cons] at hl hm
    simp only [actualsCompare, lexList, h a hl.1 b hm.1, Res.ok_bind]
    split
    · rfl
    · exact actualsCompare_spec h l m hl.2 hm.2

theorem sigCompare_spec {line : Nat → Int} {tc : Nat → Nat → Res Int} {c : Nat → Nat → Int} {as : List Nat} (h : ∀ a ∈ as, ∀ b ∈ as, tc a b = .ok (c a b))
    {s u : SigObj} (hs : Over as s) (hu : Over as u) : sigCompare line tc s u = .ok (cmpSig line c s u) := by
  unfold sigCompare cmpSig
  simp only [lex, ne_eq]
  by_cases e1 : s.input = u.input
  · have z1 := bit_sub.2 e1
    by_cases e2 : s.var = u.var
    · have z2 := bit_sub.2 e2
      by_cases e3 : line s.cls = line u.cls
      · by_cases e4 : s.actuals.length = u.actuals.length
        · have := actualsCompare_spec h _ _ hs hu
          simp [e1, e2, e3, e4, this]
        · have : (s.actuals.length : Int) - u.actuals.length ≠ 0 := by omega
          simp [e1, e2, e3, e4, this]
      · have : line s.cls - line u.cls ≠ 0 := by omega
        simp [e1, e2, e3, this]
    · have : bit s.var - bit u.var ≠ 0 := fun x => e2 (bit_sub.1 x)
      simp [e1, e2, this]
  · have : bit s.input - bit u.input ≠ 0 := fun x => e1 (bit_sub.1 x)
    simp [e1, this]

/-! ## sorting -/

theorem insertSorted_spec {cmp : SigObj → SigObj → Res Int} {S : SigObj → Prop} {c : SigObj → SigObj → Int} (h : ∀ a b, S a → S b → cmp a b = .ok (c a b))
    (p : Pre S c) {x : SigObj} (hx : S x) : ∀ l : List SigObj, (∀ a ∈ l, S a) → l.Pairwise (fun a b => c b a ≤ 0) →
    ∃ l', insertSorted cmp x l = .ok l' ∧ l'.Perm (x :: l) ∧ l'.Pairwise (fun a b => c b a ≤ 0)
  | [], _, _ => ⟨[x], rfl, .refl _, by simp⟩
  | a :: l, hl, hp => by
    rw [List.forall_mem_cons] at hl
    rw [List.pairwise_cons] at hp
    obtain ⟨l', k1, k2, k3⟩ := insertSorted_spec h p hx l hl.2 hp.2
    simp only [insertSorted, h a x hl.1 hx, Res.ok_bind]
    have n := p.neg a x hl.1 hx
    split
    · rename_i g
      refine ⟨a :: l', by simp [k1], (k2.cons a).trans (.swap ..), ?_⟩
      rw [List.pairwise_cons]
      refine ⟨fun b hb => ?_, k3⟩
      rcases List.mem_cons.1 (k2.mem_iff.1 hb) with rfl | hb
      · omega
      · exact hp.1 b hb
    · rename_i g
      refine ⟨x :: a :: l, rfl, .refl _, ?_⟩
      rw [List.pairwise_cons, List.pairwise_cons]
      refine ⟨fun b hb => ?_, hp⟩
      rcases List.mem_cons.1 hb with rfl | hb
      · omega
      · exact p.trans b a x (hl.2 b hb) hl.1 hx (hp.1 b hb) (by omega)

theorem sortLoop_spec {cmp : SigObj → SigObj → Res Int} {S : SigObj → Prop} {c : SigObj → SigObj → Int} (h : ∀ a b, S a → S b → cmp a b = .ok (c a b))
    (p : Pre S c) : ∀ (l m : List SigObj), (∀ a ∈ l, S a) → (∀ a ∈ m, S a) → m.Pairwise (fun a b => c b a ≤ 0) →
    ∃ l', sortLoop cmp l m = .ok l' ∧ l'.Perm (l ++ m) ∧ l'.Pairwise (fun a b => c b a ≤ 0)
  | [], m, _, _, hp => ⟨m, rfl, .refl _, hp⟩
  | x :: l, m, hl, hm, hp => by
    rw [List.forall_mem_cons] at hl
    obtain ⟨m', k1, k2, k3⟩ := insertSorted_spec h p hl.1 m hm hp
    obtain ⟨l', j1, j2, j3⟩ := sortLoop_spec h p l m' hl.2 (fun a ha => by
      rcases List.mem_cons.1 (k2.mem_iff.1 ha) with rfl | ha
      · exact hl.1
      · exact hm a ha) k3
    refine ⟨l', by simp [sortLoop, k1, j1], j2.trans ?_, j3⟩
    exact (k2.append_left l).trans List.perm_middle

end Aps.CSig

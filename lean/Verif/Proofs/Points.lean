import Verif.Spec.Points
import Mathlib.Tactic.Common
import Mathlib.Data.List.Basic
import Mathlib.Data.List.Nodup
import Mathlib.Data.List.Perm.Subperm
/-! # Object flow: sets, sizes, one-step lemmas -/
set_option linter.unusedVariables false
namespace Aps.Points
open Spec

section union
variable {α : Type} [DecidableEq α]

theorem fold_mem (b : List α) : ∀ (a : List α) (x : α),
    x ∈ b.foldl (fun a x => if x ∈ a then a else x :: a) a ↔ x ∈ a ∨ x ∈ b := by
  induction b with
  | nil => intro a x; simp
  | cons y b ih =>
    intro a x
    rw [List.foldl_cons, ih]
    by_cases h : y ∈ a
    · rw [if_pos h]
      constructor
      · rintro (h | h)
        · exact .inl h
        · exact .inr (List.mem_cons_of_mem _ h)
      · rintro (h' | h')
        · exact .inl h'
        · rcases List.mem_cons.1 h' with rfl | h'
          · exact .inl h
          · exact .inr h'
    · rw [if_neg h]
      simp only [List.mem_cons]
      tauto

theorem mem_union (a b : List α) (x : α) : x ∈ union a b ↔ x ∈ a ∨ x ∈ b := by
  unfold union
  split
  · next h => subst h; simp
  · exact fold_mem b a x

theorem fold_nodup (b : List α) : ∀ (a : List α), a.Nodup →
    (b.foldl (fun a x => if x ∈ a then a else x :: a) a).Nodup := by
  induction b with
  | nil => intro a h; exact h
  | cons y b ih =>
    intro a h
    rw [List.foldl_cons]
    by_cases h' : y ∈ a
    · rw [if_pos h']; exact ih _ h
    · rw [if_neg h']; exact ih _ (List.nodup_cons.2 ⟨h', h⟩)

theorem union_nodup {a b : List α} (ha : a.Nodup) (hb : b.Nodup) : (union a b).Nodup := by
  unfold union
  split
  · exact hb
  · exact fold_nodup b a ha

theorem fold_length (b : List α) : ∀ (a : List α),
    b.foldl (fun a x => if x ∈ a then a else x :: a) a = a ∨
      a.length < (b.foldl (fun a x => if x ∈ a then a else x :: a) a).length := by
  induction b with
  | nil => intro a; exact .inl rfl
  | cons y b ih =>
    intro a
    rw [List.foldl_cons]
    by_cases h' : y ∈ a
    · rw [if_pos h']; exact ih _
    · rw [if_neg h']
      right
      rcases ih (y :: a) with h | h
      · rw [h]; simp
      · simp only [List.length_cons] at h; omega

theorem union_length (a b : List α) : union a b = a ∨ a.length < (union a b).length := by
  unfold union
  split
  · next h =>
    subst h
    cases b with
    | nil => exact .inl rfl
    | cons x b => right; simp
  · exact fold_length b a

theorem union_eq_left {a b : List α} (h : union a b = a) : ∀ x ∈ b, x ∈ a := by
  intro x hx
  rw [← h]
  exact (mem_union a b x).2 (.inr hx)

end union

/-! ### size -/

def size : Nat → St → Nat
  | 0, _ => 0
  | n + 1, st => size n st + (st.O n).length + (st.U n).length

theorem size_le {B : Nat} {st st' : St} (hO : ∀ d, (st.O d).length ≤ (st'.O d).length)
    (hU : ∀ d, (st.U d).length ≤ (st'.U d).length) : size B st ≤ size B st' := by
  induction B with
  | zero => exact Nat.le_refl _
  | succ n ih =>
    simp only [size]
    have := hO n
    have := hU n
    omega

theorem size_lt {B : Nat} {st st' : St} (hO : ∀ d, (st.O d).length ≤ (st'.O d).length)
    (hU : ∀ d, (st.U d).length ≤ (st'.U d).length) {d : Nat} (hd : d < B)
    (h : (st.O d).length < (st'.O d).length ∨ (st.U d).length < (st'.U d).length) : size B st < size B st' := by
  induction B with
  | zero => omega
  | succ n ih =>
    simp only [size]
    have a := hO n
    have b := hU n
    by_cases e : d = n
    · subst e
      have := size_le (B := d) hO hU
      omega
    · have := ih (by omega)
      omega

theorem size_done (B : Nat) (st : St) (b : Bool) : size B { st with done := b } = size B st := by
  induction B with
  | zero => rfl
  | succ n ih => simp only [size, ih]

/-- either nothing happened, or the flag is down and the sets have grown -/
def Step (B : Nat) (st st' : St) : Prop := st' = st ∨ (st'.done = false ∧ size B st < size B st')

theorem Step.refl {B : Nat} (st : St) : Step B st st := .inl rfl

theorem Step.trans {B : Nat} {a b c : St} (h1 : Step B a b) (h2 : Step B b c) : Step B a c := by
  rcases h1 with rfl | ⟨h1, h1'⟩
  · exact h2
  · rcases h2 with rfl | ⟨h2, h2'⟩
    · exact .inr ⟨h1, h1'⟩
    · exact .inr ⟨h2, Nat.lt_trans h1' h2'⟩

theorem Step.anti {B : Nat} {a b : St} (h1 : Step B a b) (h2 : Step B b a) : b = a := by
  rcases h1 with h | ⟨_, h1⟩
  · exact h
  · rcases h2 with h | ⟨_, h2⟩
    · exact h.symm
    · omega

theorem Step.done {B : Nat} {a b : St} (h1 : Step B a b) (h : b.done = true) : b = a := by
  rcases h1 with h' | ⟨h', _⟩
  · exact h'
  · rw [h] at h'; cases h'

/-! ### flows -/

theorem Flow.trans {P : Prog} {b : Bool} {x y z : Loc} (h1 : Flow P b x y) (h2 : Flow P b y z) : Flow P b x z := by
  induction h2 with
  | refl b x => exact h1
  | step h e c ih => exact .step (ih h1) e c
  | field ha ho hw hy hu hc iha ihw ihy => exact .field (iha h1) ho hw hy hu hc

/-- objects at an expression, uses of an expression -/
def HoldsE (P : Prog) (e : Expr) (o : Nat) : Prop := Obj P o ∧ Flow P true (.decl o) (.expr e)
def UsedByE (P : Prog) (e : Expr) (u : Use) : Prop := ∃ y, Flow P false (.expr e) y ∧ UseAt P y u

theorem usedBy_edge {P : Prog} {x y z : Loc} {o : Bool} (e : Edge P x y o true)
    (h : Flow P false y z) : Flow P false x z :=
  Flow.trans (.step (.refl _ _) e rfl) h

/-! ### bounds -/

structure Bd (P : Prog) (B : Nat) : Prop where
  use : ∀ {r i lt d}, ExprAt P r (.use i lt d) → i < B ∧ d < B
  attr : ∀ {r lt a}, ExprAt P r (.attrRef lt a) → a < B
  fld : ∀ {r i lt f w}, ExprAt P r (.fieldRef i lt f w) → i < B ∧ f < B
  call : ∀ {r lt g as}, ExprAt P r (.call lt g as) → P.result g < B ∧ P.siOf g < B ∧ ∀ f ∈ P.formals g, f < B
  rsi : ∀ {r e}, ExprAt P (some r) e → r < B
  value : ∀ {r d k i}, At P (.value d k i) r → d < B
  assign : ∀ {r d l e}, At P (.assign d l e) r → d < B
  assignRsi : ∀ {r d l e}, At P (.assign d l e) (some r) → r < B
  lhsUse : ∀ {r d i lt x e}, At P (.assign d (.use i lt x) e) r → i < B ∧ x < B
  lhsAttr : ∀ {r d lt x e}, At P (.assign d (.attrRef lt x) e) r → x < B
  lhsFld : ∀ {r d i lt f w e}, At P (.assign d (.fieldRef i lt f w) e) r → i < B ∧ f < B
  loop : ∀ {r f s b}, At P (.forIn f s b) r → f < B
  case : ∀ {r e ms d p v k}, At P (.cases e ms d) r → MatchOf ms p → HasVar p v k → v < B
  ruleSi : ∀ {r si ks p b}, At P (.rule si ks p b) r → si < B
  kid : ∀ {r si ks p b k}, At P (.rule si ks p b) r → k ∈ ks → k < B
  module : P.module < B
  startSi : P.startSi < B

theorem Bd.obj {P : Prog} {B o : Nat} (hB : Bd P B) (h : Obj P o) : o < B := by
  rcases h with rfl | ⟨i, r, h⟩
  · exact hB.module
  · exact hB.value h

theorem Bd.useAt {P : Prog} {B : Nat} (hB : Bd P B) {y : Loc} {u : Use} (h : UseAt P y u) :
    u.id < B ∧ (∃ f, u.field = some f ∧ f < B) ∧ ∀ a, u.lhsOf = some a → a < B := by
  cases h with
  | read h => exact ⟨(hB.fld h).1, ⟨_, rfl, (hB.fld h).2⟩, fun a h => nomatch h⟩
  | write h =>
    refine ⟨(hB.lhsFld h).1, ⟨_, rfl, (hB.lhsFld h).2⟩, fun a ha => ?_⟩
    cases ha; exact hB.assign h
  | readShared h _ _ => exact ⟨(hB.use h).1, ⟨_, rfl, (hB.use h).2⟩, fun a h => nomatch h⟩
  | writeShared h _ _ =>
    refine ⟨(hB.lhsUse h).1, ⟨_, rfl, (hB.lhsUse h).2⟩, fun a ha => ?_⟩
    cases ha; exact hB.assign h

/-! ### the invariant -/

structure Ok (P : Prog) (B : Nat) (st : St) : Prop where
  ndO : ∀ d, (st.O d).Nodup
  ndU : ∀ d, (st.U d).Nodup
  supO : ∀ d, B ≤ d → st.O d = []
  supU : ∀ d, B ≤ d → st.U d = []
  holds : ∀ d, ∀ o ∈ st.O d, Holds P d o
  used : ∀ d, ∀ u ∈ st.U d, UsedBy P d u
  own : ∀ o, Obj P o → o ∈ st.O o
  root : P.module ∈ st.O P.startSi

theorem Ok.done {P : Prog} {B : Nat} {st : St} (h : Ok P B st) (b : Bool) : Ok P B { st with done := b } :=
  ⟨h.ndO, h.ndU, h.supO, h.supU, h.holds, h.used, h.own, h.root⟩

theorem addO_ok {P : Prog} {B d : Nat} {os : List Nat} {st : St} (hd : d < B) (hn : os.Nodup)
    (ho : ∀ o ∈ os, Holds P d o) (h : Ok P B st) : Ok P B (addO d os st) ∧ Step B st (addO d os st) := by
  unfold addO
  by_cases e : union (st.O d) os = st.O d
  · simp only [if_pos e]; exact ⟨h, Step.refl _⟩
  · simp only [if_neg e]
    have hl : (st.O d).length < (union (st.O d) os).length := by
      rcases union_length (st.O d) os with h | h
      · exact absurd h e
      · exact h
    refine ⟨⟨?_, h.ndU, ?_, h.supU, ?_, h.used, ?_, ?_⟩, .inr ⟨rfl, ?_⟩⟩
    · intro x
      by_cases hx : x = d
      · simp only [if_pos hx]; exact union_nodup (h.ndO d) hn
      · simp only [if_neg hx]; exact h.ndO x
    · intro x hx
      have : x ≠ d := by omega
      simp only [if_neg this]; exact h.supO x hx
    · intro x o hxo
      by_cases hx : x = d
      · simp only [if_pos hx] at hxo
        subst hx
        rcases (mem_union _ _ _).1 hxo with h' | h'
        · exact h.holds _ _ h'
        · exact ho _ h'
      · simp only [if_neg hx] at hxo; exact h.holds _ _ hxo
    · intro o hobj
      by_cases hx : o = d
      · simp only [if_pos hx]
        exact (mem_union _ _ _).2 (.inl (hx ▸ h.own o hobj))
      · simp only [if_neg hx]; exact h.own o hobj
    · by_cases hx : P.startSi = d
      · simp only [if_pos hx]
        exact (mem_union _ _ _).2 (.inl (hx ▸ h.root))
      · simp only [if_neg hx]; exact h.root
    · refine size_lt (d := d) ?_ (fun x => Nat.le_refl _) hd (.inl ?_)
      · intro x
        by_cases hx : x = d
        · subst hx; simp only [if_true]; omega
        · simp only [if_neg hx]; exact Nat.le_refl _
      · simp only [if_true]; exact hl

theorem addU_ok {P : Prog} {B d : Nat} {us : List Use} {st : St} (hd : d < B) (hn : us.Nodup)
    (ho : ∀ u ∈ us, UsedBy P d u) (h : Ok P B st) : Ok P B (addU d us st) ∧ Step B st (addU d us st) := by
  unfold addU
  by_cases e : union (st.U d) us = st.U d
  · simp only [if_pos e]; exact ⟨h, Step.refl _⟩
  · simp only [if_neg e]
    have hl : (st.U d).length < (union (st.U d) us).length := by
      rcases union_length (st.U d) us with h | h
      · exact absurd h e
      · exact h
    refine ⟨⟨h.ndO, ?_, h.supO, ?_, h.holds, ?_, h.own, h.root⟩, .inr ⟨rfl, ?_⟩⟩
    · intro x
      by_cases hx : x = d
      · simp only [if_pos hx]; exact union_nodup (h.ndU d) hn
      · simp only [if_neg hx]; exact h.ndU x
    · intro x hx
      have : x ≠ d := by omega
      simp only [if_neg this]; exact h.supU x hx
    · intro x o hxo
      by_cases hx : x = d
      · simp only [if_pos hx] at hxo
        subst hx
        rcases (mem_union _ _ _).1 hxo with h' | h'
        · exact h.used _ _ h'
        · exact ho _ h'
      · simp only [if_neg hx] at hxo; exact h.used _ _ hxo
    · refine size_lt (d := d) (fun x => Nat.le_refl _) ?_ hd (.inr ?_)
      · intro x
        by_cases hx : x = d
        · subst hx; simp only [if_true]; omega
        · simp only [if_neg hx]; exact Nat.le_refl _
      · simp only [if_true]; exact hl

theorem addO_id {d : Nat} {os : List Nat} {st : St} (h : addO d os st = st) : ∀ o ∈ os, o ∈ st.O d := by
  unfold addO at h
  by_cases e : union (st.O d) os = st.O d
  · exact union_eq_left e
  · simp only [if_neg e] at h
    exfalso
    apply e
    have := congrArg (fun s : St => s.O d) h
    simpa using this

theorem addU_id {d : Nat} {us : List Use} {st : St} (h : addU d us st = st) : ∀ u ∈ us, u ∈ st.U d := by
  unfold addU at h
  by_cases e : union (st.U d) us = st.U d
  · exact union_eq_left e
  · simp only [if_neg e] at h
    exfalso
    apply e
    have := congrArg (fun s : St => s.U d) h
    simpa using this

theorem cut_nodup {α : Type} {lt : Bool} {s : List α} (h : s.Nodup) : (cut lt s).Nodup := by
  cases lt
  · exact List.nodup_nil
  · exact h

theorem mem_cut {α : Type} {lt : Bool} {s : List α} {x : α} : x ∈ cut lt s ↔ lt = true ∧ x ∈ s := by
  cases lt <;> simp [cut]

/-! ### field reads -/

theorem readUses_ok {P : Prog} {B f : Nat} {us : List Use} (hB : Bd P B) (hn : us.Nodup)
    {G : Nat → Prop} : ∀ (qs : List Use) (acc : List Nat) (st : St), Ok P B st → acc.Nodup →
      (∀ o ∈ acc, G o) →
      (∀ q ∈ qs, ∀ a, q.lhsOf = some a → q.field = some f →
        a < B ∧ (∀ u ∈ us, UsedBy P a u) ∧ ∀ o, Holds P a o → G o) →
      Ok P B (readUses f us qs acc st).2 ∧ Step B st (readUses f us qs acc st).2 ∧
        (readUses f us qs acc st).1.Nodup ∧ ∀ o ∈ (readUses f us qs acc st).1, G o
  | [], acc, st, h, ha, hg, _ => ⟨h, Step.refl _, ha, hg⟩
  | q :: qs, acc, st, h, ha, hg, hq => by
    have rest := fun x hx => hq x (List.mem_cons_of_mem _ hx)
    rw [readUses]
    cases hl : q.lhsOf with
    | none => simp only []; exact readUses_ok hB hn qs acc st h ha hg rest
    | some a =>
      simp only []
      by_cases hf : q.field = some f
      · rw [if_pos hf]
        obtain ⟨h1, h2, h3⟩ := hq q (List.mem_cons_self ..) a hl hf
        obtain ⟨k1, k2⟩ := addU_ok h1 hn h2 h
        obtain ⟨r1, r2, r3, r4⟩ := readUses_ok hB hn qs (union acc ((addU a us st).O a)) (addU a us st) k1
          (union_nodup ha (k1.ndO a)) (fun o ho => by
            rcases (mem_union _ _ _).1 ho with ho | ho
            · exact hg o ho
            · exact h3 o (k1.holds _ _ ho)) rest
        exact ⟨r1, k2.trans r2, r3, r4⟩
      · rw [if_neg hf]
        exact readUses_ok hB hn qs acc st h ha hg rest

theorem readObjs_ok {P : Prog} {B f : Nat} {us : List Use} (hB : Bd P B) (hn : us.Nodup)
    {G : Nat → Prop} : ∀ (os acc : List Nat) (st : St), Ok P B st → acc.Nodup → (∀ o ∈ acc, G o) →
      (∀ o' ∈ os, ∀ q, UsedBy P o' q → ∀ a, q.lhsOf = some a → q.field = some f →
        a < B ∧ (∀ u ∈ us, UsedBy P a u) ∧ ∀ o, Holds P a o → G o) →
      Ok P B (readObjs f us os acc st).2 ∧ Step B st (readObjs f us os acc st).2 ∧
        (readObjs f us os acc st).1.Nodup ∧ ∀ o ∈ (readObjs f us os acc st).1, G o
  | [], acc, st, h, ha, hg, _ => ⟨h, Step.refl _, ha, hg⟩
  | o :: os, acc, st, h, ha, hg, hq => by
    rw [readObjs]
    obtain ⟨k1, k2, k3, k4⟩ := readUses_ok (f := f) hB hn (st.U o) acc st h ha hg
      (fun q hq' => hq o (List.mem_cons_self ..) q (h.used _ _ hq'))
    obtain ⟨r1, r2, r3, r4⟩ := readObjs_ok hB hn os _ _ k1 k3 k4 (fun o' ho' => hq o' (List.mem_cons_of_mem _ ho'))
    exact ⟨r1, k2.trans r2, r3, r4⟩

theorem noteShared_ok {P : Prog} {B : Nat} (hB : Bd P B) {r : Option Nat} {i d : Nat} {lt : Bool} {st : St}
    (he : ExprAt P r (.use i lt d)) (hl : P.isLocal d = true) (h : Ok P B st) :
    Ok P B (noteShared P r ⟨i, some d, none⟩ d st) ∧ Step B st (noteShared P r ⟨i, some d, none⟩ d st) := by
  unfold noteShared
  split
  · next hs =>
    cases r with
    | none => exact ⟨h, Step.refl _⟩
    | some r =>
      refine addU_ok (hB.rsi he) (by simp) ?_ h
      intro u hu
      rw [List.mem_singleton] at hu
      subst hu
      exact ⟨_, .refl _ _, .readShared he hl hs⟩
  · exact ⟨h, Step.refl _⟩

theorem noteCall_ok {P : Prog} {B : Nat} (hB : Bd P B) {r : Option Nat} {g : Nat} {lt : Bool} {as : List Expr} {st : St}
    (he : ExprAt P r (.call lt g as)) (h : Ok P B st) :
    Ok P B (noteCall P r g st) ∧ Step B st (noteCall P r g st) := by
  unfold noteCall
  cases r with
  | none => exact ⟨h, Step.refl _⟩
  | some r =>
    have e := Edge.callee he
    obtain ⟨a1, a2⟩ := addO_ok (os := st.O r) (hB.call he).2.1 (h.ndO r)
      (fun o ho => ⟨(h.holds _ _ ho).1, .step (h.holds _ _ ho).2 e rfl⟩) h
    obtain ⟨b1, b2⟩ := addU_ok (us := (addO (P.siOf g) (st.O r) st).U (P.siOf g)) (hB.rsi he) (a1.ndU _)
      (fun u hu => by
        obtain ⟨y, hy, hu⟩ := a1.used _ _ hu
        exact ⟨y, usedBy_edge e hy, hu⟩) a1
    exact ⟨b1, a2.trans b2⟩

mutual
theorem doOU_ok {P : Prog} {B : Nat} (hB : Bd P B) {r : Option Nat} : ∀ (e : Expr) (us : List Use) (st : St)
    (os : List Nat) (st' : St), ExprAt P r e → Ok P B st → us.Nodup → (∀ u ∈ us, UsedByE P e u) →
    doOU P r e us st = .ok (os, st') →
    Ok P B st' ∧ Step B st st' ∧ os.Nodup ∧ ∀ o ∈ os, HoldsE P e o
  | .const, us, st, os, st', he, h, hn, hu, hr => by
    simp only [doOU, Res.ok.injEq, Prod.mk.injEq] at hr
    obtain ⟨rfl, rfl⟩ := hr
    exact ⟨h, Step.refl _, List.nodup_nil, by simp⟩
  | .other, us, st, os, st', he, h, hn, hu, hr => by
    simp only [doOU, Res.ok.injEq, Prod.mk.injEq] at hr
    obtain ⟨rfl, rfl⟩ := hr
    exact ⟨h, Step.refl _, List.nodup_nil, by simp⟩
  | .rep lt e, us, st, os, st', he, h, hn, hu, hr => by
    simp only [doOU] at hr
    obtain ⟨h1, h2, h3, h4⟩ := doOU_ok hB e (cut lt us) st os st' he.rep h (cut_nodup hn) (fun u hu' => by
      obtain ⟨rfl, hu'⟩ := mem_cut.1 hu'
      obtain ⟨y, hy, hu2⟩ := hu u hu'
      exact ⟨y, usedBy_edge .rep hy, hu2⟩) hr
    exact ⟨h1, h2, h3, fun o ho => ⟨(h4 o ho).1, .step (h4 o ho).2 .rep rfl⟩⟩
  | .use i lt d, us, st, os, st', he, h, hn, hu, hr => by
    simp only [doOU] at hr
    split at hr
    · next hl =>
      simp only [Res.ok.injEq, Prod.mk.injEq] at hr
      obtain ⟨rfl, rfl⟩ := hr
      exact ⟨h, Step.refl _, List.nodup_nil, by simp⟩
    · next hl =>
      have hl : P.isLocal d = true := by simpa using hl
      simp only [Res.ok.injEq, Prod.mk.injEq] at hr
      obtain ⟨rfl, rfl⟩ := hr
      obtain ⟨a1, a2⟩ := noteShared_ok hB he hl h
      obtain ⟨b1, b2⟩ := addU_ok (us := cut lt us) (hB.use he).2 (cut_nodup hn) (fun u hu' => by
        obtain ⟨rfl, hu'⟩ := mem_cut.1 hu'
        obtain ⟨y, hy, hu2⟩ := hu u hu'
        exact ⟨y, usedBy_edge (.use hl) hy, hu2⟩) a1
      exact ⟨b1, a2.trans b2, b1.ndO _, fun o ho => ⟨(b1.holds _ _ ho).1, .step (b1.holds _ _ ho).2 (.use hl) rfl⟩⟩
  | .attrRef lt a, us, st, os, st', he, h, hn, hu, hr => by
    simp only [doOU, Res.ok.injEq, Prod.mk.injEq] at hr
    obtain ⟨rfl, rfl⟩ := hr
    obtain ⟨b1, b2⟩ := addU_ok (us := cut lt us) (hB.attr he) (cut_nodup hn) (fun u hu' => by
      obtain ⟨rfl, hu'⟩ := mem_cut.1 hu'
      obtain ⟨y, hy, hu2⟩ := hu u hu'
      exact ⟨y, usedBy_edge .attrRef hy, hu2⟩) h
    exact ⟨b1, b2, b1.ndO _, fun o ho => ⟨(b1.holds _ _ ho).1, .step (b1.holds _ _ ho).2 .attrRef rfl⟩⟩
  | .fieldRef i lt f w, us, st, os, st', he, h, hn, hu, hr => by
    simp only [doOU] at hr
    obtain ⟨⟨ow, st1⟩, hw, hr⟩ := Res.bind_eq_ok.1 hr
    simp only [Res.ok.injEq] at hr
    obtain ⟨a1, a2, a3, a4⟩ := doOU_ok hB w _ st ow st1 he.obj h (by simp) (fun u hu' => by
      rw [List.mem_singleton] at hu'
      subst hu'
      exact ⟨_, .refl _ _, .read he⟩) hw
    have key := readObjs_ok (f := f) (us := cut lt us) hB (cut_nodup hn) (G := HoldsE P (.fieldRef i lt f w)) ow [] st1
      a1 List.nodup_nil (by simp) (fun o' ho' q hq a ha hf => by
        obtain ⟨y, hy, hq⟩ := hq
        have hq' : UseAt P y ⟨q.id, some f, some a⟩ := by
          rw [← ha, ← hf]; exact hq
        refine ⟨(hB.useAt hq').2.2 a rfl, fun u hu' => ?_, fun o ho => ?_⟩
        · obtain ⟨hlt, hu'⟩ := mem_cut.1 hu'
          obtain ⟨z, hz, hu2⟩ := hu u hu'
          exact ⟨z, Flow.trans (.field (.refl _ _) (a4 _ ho').1 (a4 _ ho').2 hy hq' (.inr hlt)) hz, hu2⟩
        · exact ⟨ho.1, .field ho.2 (a4 _ ho').1 (a4 _ ho').2 hy hq' (.inl rfl)⟩)
    rw [hr] at key
    exact ⟨key.1, a2.trans key.2.1, key.2.2.1, key.2.2.2⟩
  | .call lt g as, us, st, os, st', he, h, hn, hu, hr => by
    simp only [doOU] at hr
    obtain ⟨st1, hw, hr⟩ := Res.bind_eq_ok.1 hr
    simp only [Res.ok.injEq, Prod.mk.injEq] at hr
    obtain ⟨rfl, rfl⟩ := hr
    obtain ⟨a1, a2⟩ := noteCall_ok hB he h
    obtain ⟨b1, b2⟩ := doActuals_ok hB (P.formals g) as _ _ (fun a ha => he.arg ha)
      (fun k a f ha hf => ⟨.arg he ha hf, (hB.call he).2.2 f (List.mem_of_getElem? hf)⟩) a1 hw
    obtain ⟨c1, c2⟩ := addU_ok (us := cut lt us) (hB.call he).1 (cut_nodup hn) (fun u hu' => by
      obtain ⟨rfl, hu'⟩ := mem_cut.1 hu'
      obtain ⟨y, hy, hu2⟩ := hu u hu'
      exact ⟨y, usedBy_edge .result hy, hu2⟩) b1
    exact ⟨c1, a2.trans (b2.trans c2), c1.ndO _,
      fun o ho => ⟨(c1.holds _ _ ho).1, .step (c1.holds _ _ ho).2 .result rfl⟩⟩
  | .prim lt as, us, st, os, st', he, h, hn, hu, hr => by
    simp only [doOU] at hr
    exact doPrims_ok hB as (cut lt us) [] st os st' (fun a ha => he.prim ha) h (cut_nodup hn)
      (fun a ha u hu' => by
        obtain ⟨rfl, hu'⟩ := mem_cut.1 hu'
        obtain ⟨y, hy, hu2⟩ := hu u hu'
        exact ⟨y, usedBy_edge (.prim ha) hy, hu2⟩)
      (fun a ha o ho => ⟨ho.1, .step ho.2 (.prim ha) rfl⟩) List.nodup_nil (by simp) hr
theorem doActuals_ok {P : Prog} {B : Nat} (hB : Bd P B) {r : Option Nat} : ∀ (fs : List Nat) (as : List Expr) (st st' : St),
    (∀ a ∈ as, ExprAt P r a) →
    (∀ (k : Nat) (a : Expr) (f : Nat), as[k]? = some a → fs[k]? = some f → Edge P (.expr a) (.decl f) true true ∧ f < B) →
    Ok P B st → doActuals P r fs as st = .ok st' → Ok P B st' ∧ Step B st st'
  | fs, [], st, st', _, _, h, hr => by
    simp only [doActuals, Res.ok.injEq] at hr
    subst hr
    exact ⟨h, Step.refl _⟩
  | [], _ :: _, st, st', _, _, h, hr => by simp [doActuals] at hr
  | f :: fs, a :: as, st, st', he, hx, h, hr => by
    simp only [doActuals] at hr
    obtain ⟨⟨os, st1⟩, hw, hr⟩ := Res.bind_eq_ok.1 hr
    obtain ⟨e, hf⟩ := hx 0 a f rfl rfl
    obtain ⟨a1, a2, a3, a4⟩ := doOU_ok hB a _ st os st1 (he a (List.mem_cons_self ..)) h (h.ndU f) (fun u hu => by
      obtain ⟨y, hy, hu⟩ := h.used _ _ hu
      exact ⟨y, usedBy_edge e hy, hu⟩) hw
    obtain ⟨b1, b2⟩ := addO_ok hf a3 (fun o ho => ⟨(a4 o ho).1, .step (a4 o ho).2 e rfl⟩) a1
    obtain ⟨c1, c2⟩ := doActuals_ok hB fs as _ st' (fun a ha => he a (List.mem_cons_of_mem _ ha))
      (fun k a f ha hf => hx (k + 1) a f ha hf) b1 hr
    exact ⟨c1, a2.trans (b2.trans c2)⟩
theorem doPrims_ok {P : Prog} {B : Nat} (hB : Bd P B) {r : Option Nat} {G : Nat → Prop} : ∀ (as : List Expr)
    (us : List Use) (acc : List Nat) (st : St) (os : List Nat) (st' : St),
    (∀ a ∈ as, ExprAt P r a) → Ok P B st → us.Nodup → (∀ a ∈ as, ∀ u ∈ us, UsedByE P a u) →
    (∀ a ∈ as, ∀ o, HoldsE P a o → G o) → acc.Nodup → (∀ o ∈ acc, G o) →
    doPrims P r as us acc st = .ok (os, st') → Ok P B st' ∧ Step B st st' ∧ os.Nodup ∧ ∀ o ∈ os, G o
  | [], us, acc, st, os, st', he, h, hn, hu, hg, ha, hga, hr => by
    simp only [doPrims, Res.ok.injEq, Prod.mk.injEq] at hr
    obtain ⟨rfl, rfl⟩ := hr
    exact ⟨h, Step.refl _, ha, hga⟩
  | a :: as, us, acc, st, os, st', he, h, hn, hu, hg, ha, hga, hr => by
    simp only [doPrims] at hr
    obtain ⟨⟨o1, st1⟩, hw, hr⟩ := Res.bind_eq_ok.1 hr
    obtain ⟨a1, a2, a3, a4⟩ := doOU_ok hB a us st o1 st1 (he a (List.mem_cons_self ..)) h hn
      (hu a (List.mem_cons_self ..)) hw
    obtain ⟨c1, c2, c3, c4⟩ := doPrims_ok hB as us (union acc o1) st1 os st' (fun a ha => he a (List.mem_cons_of_mem _ ha))
      a1 hn (fun a ha => hu a (List.mem_cons_of_mem _ ha)) (fun a ha => hg a (List.mem_cons_of_mem _ ha))
      (union_nodup ha a3) (fun o ho => by
        rcases (mem_union _ _ _).1 ho with ho | ho
        · exact hga o ho
        · exact hg a (List.mem_cons_self ..) o (a4 o ho)) hr
    exact ⟨c1, a2.trans c2, c3, c4⟩
end

theorem doUO_ok {P : Prog} {B : Nat} (hB : Bd P B) {r : Option Nat} {d : Nat} {l e : Expr} {st st' : St} {us : List Use}
    (ha : At P (.assign d l e) r) (h : Ok P B st) (hr : doUO P r d (st.O d) st l = .ok (us, st')) :
    Ok P B st' ∧ Step B st st' ∧ us.Nodup ∧ ∀ u ∈ us, UsedBy P d u := by
  cases l with
  | const => cases hr; exact ⟨h, Step.refl _, List.nodup_nil, by simp⟩
  | other => cases hr; exact ⟨h, Step.refl _, List.nodup_nil, by simp⟩
  | rep lt e => cases hr; exact ⟨h, Step.refl _, List.nodup_nil, by simp⟩
  | call lt g as => cases hr
  | prim lt as => cases hr
  | attrRef lt b =>
    simp only [doUO, Res.ok.injEq, Prod.mk.injEq] at hr
    obtain ⟨rfl, rfl⟩ := hr
    have ed := Edge.lhsAttr ha
    obtain ⟨a1, a2⟩ := addO_ok (os := cut lt (st.O d)) (hB.lhsAttr ha) (cut_nodup (h.ndO d)) (fun o ho => by
      obtain ⟨rfl, ho⟩ := mem_cut.1 ho
      exact ⟨(h.holds _ _ ho).1, .step (h.holds _ _ ho).2 ed rfl⟩) h
    refine ⟨a1, a2, a1.ndU _, fun u hu => ?_⟩
    obtain ⟨y, hy, hu⟩ := a1.used _ _ hu
    exact ⟨y, usedBy_edge ed hy, hu⟩
  | fieldRef i lt f w =>
    simp only [doUO] at hr
    obtain ⟨⟨ow, st1⟩, hw, hr⟩ := Res.bind_eq_ok.1 hr
    simp only [Res.ok.injEq, Prod.mk.injEq] at hr
    obtain ⟨rfl, rfl⟩ := hr
    obtain ⟨a1, a2, a3, a4⟩ := doOU_ok hB w _ st ow _ (.lhsObj ha) h (by simp) (fun u hu' => by
      rw [List.mem_singleton] at hu'
      subst hu'
      exact ⟨_, .refl _ _, .write ha⟩) hw
    exact ⟨a1, a2, List.nodup_nil, by simp⟩
  | use i lt x =>
    simp only [doUO] at hr
    split at hr
    · cases hr; exact ⟨h, Step.refl _, List.nodup_nil, by simp⟩
    next hl =>
    have hl : P.isLocal x = true := by simpa using hl
    have ed := Edge.lhsUse ha hl
    split at hr
    · next hs =>
      cases r with
      | none => cases hr
      | some r =>
        simp only [Res.ok.injEq, Prod.mk.injEq] at hr
        obtain ⟨rfl, rfl⟩ := hr
        obtain ⟨b1, b2⟩ := addU_ok (us := [⟨i, some x, some d⟩]) (hB.assignRsi ha) (by simp) (fun u hu => by
          rw [List.mem_singleton] at hu
          subst hu
          exact ⟨_, .refl _ _, .writeShared ha hl hs⟩) h
        obtain ⟨a1, a2⟩ := addO_ok (os := cut lt (st.O d)) (hB.lhsUse ha).2 (cut_nodup (h.ndO d)) (fun o ho => by
          obtain ⟨rfl, ho⟩ := mem_cut.1 ho
          exact ⟨(h.holds _ _ ho).1, .step (h.holds _ _ ho).2 ed rfl⟩) b1
        refine ⟨a1, b2.trans a2, a1.ndU _, fun u hu => ?_⟩
        obtain ⟨y, hy, hu⟩ := a1.used _ _ hu
        exact ⟨y, usedBy_edge ed hy, hu⟩
    · split at hr
      · cases hr
      · simp only [Res.ok.injEq, Prod.mk.injEq] at hr
        obtain ⟨rfl, rfl⟩ := hr
        obtain ⟨a1, a2⟩ := addO_ok (os := cut lt (st.O d)) (hB.lhsUse ha).2 (cut_nodup (h.ndO d)) (fun o ho => by
          obtain ⟨rfl, ho⟩ := mem_cut.1 ho
          exact ⟨(h.holds _ _ ho).1, .step (h.holds _ _ ho).2 ed rfl⟩) h
        refine ⟨a1, a2, a1.ndU _, fun u hu => ?_⟩
        obtain ⟨y, hy, hu⟩ := a1.used _ _ hu
        exact ⟨y, usedBy_edge ed hy, hu⟩

mutual
theorem doUOp_ok {P : Prog} {B : Nat} {e : Expr} : ∀ (p : Pat) (os : List Nat) (st : St),
    Ok P B st → os.Nodup →
    (∀ v k, HasVar p v k → v < B ∧ (∀ u, UsedBy P v u → UsedByE P e u) ∧ (k = true → ∀ o ∈ os, Holds P v o)) →
    Ok P B (doUOp p os st).2 ∧ Step B st (doUOp p os st).2 ∧ (doUOp p os st).1.Nodup ∧
      ∀ u ∈ (doUOp p os st).1, UsedByE P e u
  | .other, os, st, h, hn, hv => by simp only [doUOp]; exact ⟨h, Step.refl _, List.nodup_nil, by simp⟩
  | .none, os, st, h, hn, hv => by simp only [doUOp]; exact ⟨h, Step.refl _, List.nodup_nil, by simp⟩
  | .cond _, os, st, h, hn, hv => by simp only [doUOp]; exact ⟨h, Step.refl _, List.nodup_nil, by simp⟩
  | .var lt d, os, st, h, hn, hv => by
    simp only [doUOp]
    obtain ⟨h1, h2, h3⟩ := hv d lt (.var lt d)
    obtain ⟨a1, a2⟩ := addO_ok (os := cut lt os) h1 (cut_nodup hn) (fun o ho => by
      obtain ⟨hlt, ho⟩ := mem_cut.1 ho
      exact h3 hlt o ho) h
    exact ⟨a1, a2, a1.ndU _, fun u hu => h2 u (a1.used _ _ hu)⟩
  | .rest lt p, os, st, h, hn, hv => by
    simp only [doUOp]
    exact doUOp_ok p (cut lt os) st h (cut_nodup hn) (fun v k hk => by
      obtain ⟨h1, h2, h3⟩ := hv v _ (.rest (lt := lt) hk)
      refine ⟨h1, h2, fun hkt o ho => ?_⟩
      obtain ⟨hlt, ho⟩ := mem_cut.1 ho
      exact h3 (by simp [hlt, hkt]) o ho)
  | .and lt p q, os, st, h, hn, hv => by
    simp only [doUOp]
    obtain ⟨a1, a2, a3, a4⟩ := doUOp_ok p (cut lt os) st h (cut_nodup hn) (fun v k hk => by
      obtain ⟨h1, h2, h3⟩ := hv v _ (.andL (lt := lt) (q := q) hk)
      refine ⟨h1, h2, fun hkt o ho => ?_⟩
      obtain ⟨hlt, ho⟩ := mem_cut.1 ho
      exact h3 (by simp [hlt, hkt]) o ho)
    obtain ⟨b1, b2, b3, b4⟩ := doUOp_ok q (cut lt os) _ a1 (cut_nodup hn) (fun v k hk => by
      obtain ⟨h1, h2, h3⟩ := hv v _ (.andR (lt := lt) (p := p) hk)
      refine ⟨h1, h2, fun hkt o ho => ?_⟩
      obtain ⟨hlt, ho⟩ := mem_cut.1 ho
      exact h3 (by simp [hlt, hkt]) o ho)
    refine ⟨b1, a2.trans b2, union_nodup a3 b3, fun u hu => ?_⟩
    rcases (mem_union _ _ _).1 hu with hu | hu
    · exact a4 u hu
    · exact b4 u hu
  | .call lt ps, os, st, h, hn, hv => by
    simp only [doUOp]
    exact doUOps_ok ps (cut lt os) [] st h (cut_nodup hn) (fun p hp v k hk => by
      obtain ⟨h1, h2, h3⟩ := hv v _ (.call (lt := lt) hp hk)
      refine ⟨h1, h2, fun hkt o ho => ?_⟩
      obtain ⟨hlt, ho⟩ := mem_cut.1 ho
      exact h3 (by simp [hlt, hkt]) o ho) List.nodup_nil (by simp)
theorem doUOps_ok {P : Prog} {B : Nat} {e : Expr} : ∀ (ps : List Pat) (os : List Nat) (acc : List Use) (st : St),
    Ok P B st → os.Nodup →
    (∀ p ∈ ps, ∀ v k, HasVar p v k → v < B ∧ (∀ u, UsedBy P v u → UsedByE P e u) ∧
      (k = true → ∀ o ∈ os, Holds P v o)) →
    acc.Nodup → (∀ u ∈ acc, UsedByE P e u) →
    Ok P B (doUOps ps os acc st).2 ∧ Step B st (doUOps ps os acc st).2 ∧ (doUOps ps os acc st).1.Nodup ∧
      ∀ u ∈ (doUOps ps os acc st).1, UsedByE P e u
  | [], os, acc, st, h, hn, hv, ha, hu => by simp only [doUOps]; exact ⟨h, Step.refl _, ha, hu⟩
  | p :: ps, os, acc, st, h, hn, hv, ha, hu => by
    simp only [doUOps]
    obtain ⟨a1, a2, a3, a4⟩ := doUOp_ok (e := e) p os st h hn (hv p (List.mem_cons_self ..))
    obtain ⟨b1, b2, b3, b4⟩ := doUOps_ok (e := e) ps os (union acc (doUOp p os st).1) _ a1 hn
      (fun p hp => hv p (List.mem_cons_of_mem _ hp)) (union_nodup ha a3) (fun u hu' => by
        rcases (mem_union _ _ _).1 hu' with h | h
        · exact hu u h
        · exact a4 u h)
    exact ⟨b1, a2.trans b2, b3, b4⟩
end

end Aps.Points

import Verif.Proofs.CType
/-! Canonical types as terms: what an address denotes, and the comparison on terms. -/
namespace Aps.CType
open Aps.HashCons
open Aps.HashTable (NtpOk)
set_option linter.unusedVariables false

/-- Type terms: a declared type, a type of another type, a function type. -/
inductive Ty
  | use (decl : Nat)
  | qual (source : Ty) (decl : Nat)
  | func (params : List Ty) (ret : Ty)

/-- The term at an address. -/
inductive Rep (mem : List Node) : Nat → Ty → Prop
  | use {a d} : at? mem a = some (.use d) → Rep mem a (.use d)
  | qual {a d s S} : at? mem a = some (.qual d s) → Rep mem s S → Rep mem a (.qual S d)
  | func {a r ps R Ps} : at? mem a = some (.func r ps) → Rep mem r R → ps.length = Ps.length →
      (∀ (i : Nat) p P, ps[i]? = some p → Ps[i]? = some P → Rep mem p P) → Rep mem a (.func Ps R)

theorem ext_of_all {α : Type} {R : α → α → Prop} {l l' : List α} (hl : l.length = l'.length)
    (h : ∀ (i : Nat) a b, l[i]? = some a → l'[i]? = some b → a = b) : l = l' := by
  apply List.ext_getElem? 
  intro i
  by_cases hi : i < l.length
  · have hi' : i < l'.length := by omega
    rw [List.getElem?_eq_getElem hi, List.getElem?_eq_getElem hi']
    exact congrArg some (h i _ _ (List.getElem?_eq_getElem hi) (List.getElem?_eq_getElem hi'))
  · rw [List.getElem?_eq_none (by omega), List.getElem?_eq_none (by omega)]

theorem Rep.fun {mem : List Node} {a : Nat} {T : Ty} (h : Rep mem a T) : ∀ {U}, Rep mem a U → T = U := by
  induction h with
  | use h =>
    intro U hU
    cases hU with
    | use h' => rw [h] at h'; cases h'; rfl
    | qual h' _ => rw [h] at h'; cases h'
    | func h' _ _ _ => rw [h] at h'; cases h'
  | qual h _ ih =>
    intro U hU
    cases hU with
    | use h' => rw [h] at h'; cases h'
    | qual h' h2 => rw [h] at h'; cases h'; rw [ih h2]
    | func h' _ _ _ => rw [h] at h'; cases h'
  | @func _ r ps R Ps h _ hl _ ih ih2 =>
    intro U hU
    cases hU with
    | use h' => rw [h] at h'; cases h'
    | qual h' h2 => rw [h] at h'; cases h'
    | func h' h2 hl' h3 =>
      rw [h] at h'; cases h'
      rw [ih h2]
      congr 1
      apply ext_of_all (R := fun _ _ => True) (by omega)
      intro i A B hA hB
      have hi : i < ps.length := by rw [hl]; exact (List.getElem?_eq_some_iff.1 hA).1
      exact ih2 i ps[i] A (List.getElem?_eq_getElem hi) hA (h3 i ps[i] B (List.getElem?_eq_getElem hi) hB)

theorem addr_inj {mem : List Node} (hd : mem.Nodup) {a b : Nat} {n : Node} (ha : at? mem a = some n)
    (hb : at? mem b = some n) : a = b := by
  obtain ⟨a1, a2⟩ := at?_some.1 ha
  obtain ⟨b1, b2⟩ := at?_some.1 hb
  have := List.getElem?_inj (i := a - 1) (j := b - 1) (List.getElem?_eq_some_iff.1 a2).1 hd |>.1 (a2.trans b2.symm)
  omega

theorem Rep.inj {mem : List Node} (hd : mem.Nodup) {a : Nat} {T : Ty} (h : Rep mem a T) :
    ∀ {b}, Rep mem b T → a = b := by
  induction h with
  | use h =>
    intro b hb
    cases hb with
    | use h' => exact addr_inj hd h h'
  | qual h _ ih =>
    intro b hb
    cases hb with
    | qual h' h2 => cases ih h2; exact addr_inj hd h h'
  | @func _ r ps R Ps h _ hl _ ih ih2 =>
    intro b hb
    cases hb with
    | func h' h2 hl' h3 =>
      cases ih h2
      refine addr_inj hd h (h'.trans ?_)
      congr 2
      apply ext_of_all (R := fun _ _ => True) (by omega)
      intro i q p hq hp
      have hi : i < Ps.length := by rw [← hl]; exact (List.getElem?_eq_some_iff.1 hp).1
      exact (ih2 i p Ps[i] hp (List.getElem?_eq_getElem hi) (h3 i q Ps[i] hq (List.getElem?_eq_getElem hi))).symm

theorem at?_prefix {mem mem' : List Node} (h : mem <+: mem') {a : Nat} {n : Node} (ha : at? mem a = some n) :
    at? mem' a = some n := by
  obtain ⟨l, rfl⟩ := h
  have := (List.getElem?_eq_some_iff.1 (at?_some.1 ha).2).1
  rw [at?_append (by omega)]
  exact ha

theorem Rep.mono {mem mem' : List Node} (h : mem <+: mem') {a : Nat} {T : Ty} (hr : Rep mem a T) : Rep mem' a T := by
  induction hr with
  | use h1 => exact .use (at?_prefix h h1)
  | qual h1 _ ih => exact .qual (at?_prefix h h1) ih
  | func h1 _ hl _ ih ih2 => exact .func (at?_prefix h h1) ih hl ih2

theorem Rep.valid {mem : List Node} {a : Nat} {T : Ty} (h : Rep mem a T) : 1 ≤ a ∧ a ≤ mem.length := by
  have key : ∀ {n}, at? mem a = some n → 1 ≤ a ∧ a ≤ mem.length := by
    intro n hn
    obtain ⟨h1, h2⟩ := at?_some.1 hn
    have := (List.getElem?_eq_some_iff.1 h2).1
    omega
  cases h with
  | use h => exact key h
  | qual h _ => exact key h
  | func h _ _ _ => exact key h

/-! ## comparison -/

mutual
/-- comparison of terms -/
def cmpTy (line : Nat → Int) : Ty → Ty → Int
  | .use d, .use e => line d - line e
  | .qual S d, .qual T e => if line d ≠ line e then line d - line e else cmpTy line S T
  | .func Ps R, .func Qs S =>
    if Ps.length ≠ Qs.length then (if (Ps.length : Int) - Qs.length > 0 then 1 else -1)
    else if cmpTy line R S ≠ 0 then cmpTy line R S else cmpTys line Ps Qs
  | .func .., .use .. => -1
  | .func .., .qual .. => -2
  | .use .., .func .. => 1
  | .use .., .qual .. => -1
  | .qual .., .func .. => 2
  | .qual .., .use .. => 1
def cmpTys (line : Nat → Int) : List Ty → List Ty → Int
  | P :: Ps, Q :: Qs => if cmpTy line P Q ≠ 0 then cmpTy line P Q else cmpTys line Ps Qs
  | _, _ => 0
end

theorem paramsCompare_spec {line : Nat → Int} {c : Nat → Nat → Res Int} : ∀ {ps qs : List Nat} {Ps Qs : List Ty},
    ps.length = Ps.length → qs.length = Qs.length →
    (∀ (i j : Nat) p P q Q, ps[i]? = some p → Ps[i]? = some P → qs[j]? = some q → Qs[j]? = some Q →
      c p q = .ok (cmpTy line P Q)) → paramsCompare c ps qs = .ok (cmpTys line Ps Qs)
  | [], _, [], _, _, _, _ => by simp [paramsCompare, cmpTys]
  | _ :: _, [], _ :: _, [], _, _, _ => by simp [paramsCompare, cmpTys]
  | p :: ps, q :: qs, P :: Ps, Q :: Qs, h1, h2, H => by
    unfold paramsCompare cmpTys
    rw [H 0 0 p P q Q (by simp) (by simp) (by simp) (by simp)]
    simp only [Res.ok_bind]
    split
    · rfl
    · exact paramsCompare_spec (by simpa using h1) (by simpa using h2)
        (fun i j a A b B ha hA hb hB => H (i + 1) (j + 1) a A b B (by simpa using ha) (by simpa using hA)
          (by simpa using hb) (by simpa using hB))
  | [], _, _ :: _, _, h, _, _ => by simp at h
  | _ :: _, _, [], _, h, _, _ => by simp at h
  | _ :: _, [], _ :: _, _ :: _, _, h, _ => by simp at h
  | _ :: _, _ :: _, _ :: _, [], _, h, _ => by simp at h

/-- the comparison of addresses is the comparison of the terms they denote -/
theorem typeCompare_spec {line : Nat → Int} {mem : List Node} (ho : Ordered mem) : ∀ (f a b : Nat) (A B : Ty), a ≤ f →
    Rep mem a A → Rep mem b B → typeCompare line mem f a b = .ok (cmpTy line A B)
  | 0, a, b, A, B, hf, ha, hb => by have := ha.valid; omega
  | f + 1, a, b, A, B, hf, ha, hb => by
    unfold typeCompare
    cases ha with
    | use h =>
      cases hb with
      | use h' => rw [h, h']; simp [nodeCompare, cmpTy]
      | qual h' _ => rw [h, h']; simp [nodeCompare, cmpTy, Node.key]
      | func h' _ _ _ => rw [h, h']; simp [nodeCompare, cmpTy, Node.key]
    | qual h h2 =>
      cases hb with
      | use h' => rw [h, h']; simp [nodeCompare, cmpTy, Node.key]
      | qual h' h2' =>
        rw [h, h']
        simp only [nodeCompare, cmpTy]
        split
        · rfl
        · have := ho _ _ (at?_some.1 h).2 _ (by simp [Node.kids]; rfl)
          exact typeCompare_spec ho f _ _ _ _ (by omega) h2 h2'
      | func h' _ _ _ => rw [h, h']; simp [nodeCompare, cmpTy, Node.key]
    | func h h2 hl h3 =>
      cases hb with
      | use h' => rw [h, h']; simp [nodeCompare, cmpTy, Node.key]
      | qual h' _ => rw [h, h']; simp [nodeCompare, cmpTy, Node.key]
      | func h' h2' hl' h3' =>
        rename_i r ps R Ps s qs S Qs
        rw [h, h']
        simp only [nodeCompare, cmpTy]
        rw [hl, hl']
        split
        · rfl
        · have hr := ho _ _ (at?_some.1 h).2 r (by simp [Node.kids])
          rw [typeCompare_spec ho f r s R S (by omega) h2 h2']
          simp only [Res.ok_bind]
          split
          · rfl
          · apply paramsCompare_spec hl hl'
            intro i j p P q Q hp hP hq hQ
            have hp' := ho _ _ (at?_some.1 h).2 p (by simp [Node.kids, List.mem_of_getElem? hp])
            exact typeCompare_spec ho f p q P Q (by omega) (h3 i p P hp hP) (h3' j q Q hq hQ)

mutual
theorem cmpTy_refl (line : Nat → Int) : ∀ A : Ty, cmpTy line A A = 0
  | .use _ => by simp [cmpTy]
  | .qual S _ => by simp [cmpTy, cmpTy_refl line S]
  | .func Ps R => by simp [cmpTy, cmpTy_refl line R, cmpTys_refl line Ps]
theorem cmpTys_refl (line : Nat → Int) : ∀ As : List Ty, cmpTys line As As = 0
  | [] => by simp [cmpTys]
  | A :: As => by simp [cmpTys, cmpTy_refl line A, cmpTys_refl line As]
end

mutual
theorem cmpTy_neg (line : Nat → Int) : ∀ A B : Ty, cmpTy line B A = - cmpTy line A B
  | .use d, .use e => by simp [cmpTy]
  | .use d, .qual .. => by simp [cmpTy]
  | .use d, .func .. => by simp [cmpTy]
  | .qual .., .use .. => by simp [cmpTy]
  | .qual .., .func .. => by simp [cmpTy]
  | .func .., .use .. => by simp [cmpTy]
  | .func .., .qual .. => by simp [cmpTy]
  | .qual S d, .qual T e => by
    simp only [cmpTy]
    have := cmpTy_neg line S T
    split <;> split <;> omega
  | .func Ps R, .func Qs S => by
    simp only [cmpTy]
    have h1 := cmpTy_neg line R S
    have h2 := cmpTys_neg line Ps Qs
    rw [h1]
    split <;> split <;> (repeat' split) <;> omega
theorem cmpTys_neg (line : Nat → Int) : ∀ As Bs : List Ty, cmpTys line Bs As = - cmpTys line As Bs
  | [], [] => by simp [cmpTys]
  | [], _ :: _ => by simp [cmpTys]
  | _ :: _, [] => by simp [cmpTys]
  | A :: As, B :: Bs => by
    simp only [cmpTys]
    have h1 := cmpTy_neg line A B
    have h2 := cmpTys_neg line As Bs
    rw [h1]
    split <;> split <;> omega
end

mutual
theorem cmpTy_zero (line : Nat → Int) : ∀ A B C : Ty, cmpTy line A B = 0 → cmpTy line A C = cmpTy line B C
  | .use d, .use e, .use f => by simp only [cmpTy]; omega
  | .use d, .use e, .qual .. => by simp [cmpTy]
  | .use d, .use e, .func .. => by simp [cmpTy]
  | .qual S d, .qual T e, .qual U f => by
    simp only [cmpTy]
    have h := cmpTy_zero line S T U
    by_cases h1 : line d = line e
    · simp only [h1, ne_eq, not_true, if_false]
      intro h2; rw [h h2]
    · simp only [ne_eq, h1, not_false_iff, if_true]; omega
  | .qual S d, .qual T e, .use .. => by simp [cmpTy]
  | .qual S d, .qual T e, .func .. => by simp [cmpTy]
  | .func Ps R, .func Qs S, .func Us T => by
    simp only [cmpTy]
    have h := cmpTy_zero line R S T
    by_cases h1 : Ps.length = Qs.length
    · have h2 := cmpTys_zero line Ps Qs Us h1
      simp only [h1, ne_eq, not_true, if_false]
      by_cases h3 : cmpTy line R S = 0
      · simp only [h3, not_true, if_false]
        intro h4
        rw [h h3, h2 h4]
      · simp only [h3, not_false_iff, if_true]; intro h4; exact absurd h4 id
    · simp only [ne_eq, h1, not_false_iff, if_true]
      split <;> omega
  | .func .., .func .., .use .. => by simp [cmpTy]
  | .func .., .func .., .qual .. => by simp [cmpTy]
  | .use .., .qual .., _ => by simp [cmpTy]
  | .use .., .func .., _ => by simp [cmpTy]
  | .qual .., .use .., _ => by simp [cmpTy]
  | .qual .., .func .., _ => by simp [cmpTy]
  | .func .., .use .., _ => by simp [cmpTy]
  | .func .., .qual .., _ => by simp [cmpTy]
theorem cmpTys_zero (line : Nat → Int) : ∀ As Bs Cs : List Ty, As.length = Bs.length → cmpTys line As Bs = 0 →
    cmpTys line As Cs = cmpTys line Bs Cs
  | [], [], _, _ => by simp
  | [], _ :: _, _, h => by simp at h
  | _ :: _, [], _, h => by simp at h
  | _ :: _, _ :: _, [], _ => by simp [cmpTys]
  | A :: As, B :: Bs, C :: Cs, hl => by
    simp only [cmpTys]
    have h1 := cmpTy_zero line A B C
    have h2 := cmpTys_zero line As Bs Cs (by simpa using hl)
    by_cases h : cmpTy line A B = 0
    · simp only [h, ne_eq, not_true, if_false]
      intro h3
      rw [h1 h, h2 h3]
    · simp [h]
end

mutual
theorem cmpTy_trans (line : Nat → Int) : ∀ A B C : Ty, cmpTy line A B < 0 → cmpTy line B C < 0 → cmpTy line A C < 0
  | .use d, .use e, .use f => by simp only [cmpTy]; omega
  | .use d, .use e, .qual .. => by simp [cmpTy]
  | .use d, .use e, .func .. => by simp [cmpTy]
  | .qual S d, .qual T e, .qual U f => by
    simp only [cmpTy]
    have h := cmpTy_trans line S T U
    have hz := cmpTy_zero line S T U
    split <;> split <;> split <;> omega
  | .qual S d, .qual T e, .use .. => by simp [cmpTy]
  | .qual S d, .qual T e, .func .. => by simp [cmpTy]
  | .func Ps R, .func Qs S, .func Us T => by
    simp only [cmpTy]
    have h := cmpTy_trans line R S T
    have hz := cmpTy_zero line R S T
    have hz' := cmpTy_zero line S T R
    have n1 := cmpTy_neg line S R
    have n2 := cmpTy_neg line T R
    by_cases h1 : Ps.length = Qs.length
    · by_cases h2 : Qs.length = Us.length
      · have h3 := cmpTys_trans line Ps Qs Us h1 h2
        rw [h1, h2]
        simp only [ne_eq, not_true, if_false]
        split <;> split <;> split <;> omega
      · rw [h1]
        simp only [ne_eq, h2, not_true, not_false_iff, if_false, if_true]
        intro _ h; exact h
    · by_cases h2 : Qs.length = Us.length
      · rw [← h2]
        simp only [ne_eq, h1, not_true, not_false_iff, if_false, if_true]
        intro h _; exact h
      · simp only [ne_eq, h1, h2, not_false_iff, if_true]
        by_cases h3 : Ps.length = Us.length
        · simp only [h3, not_true, if_false]
          split <;> split <;> omega
        · simp only [h3, not_false_iff, if_true]
          split <;> split <;> split <;> omega
  | .func .., .func .., .use .. => by simp [cmpTy]
  | .func .., .func .., .qual .. => by simp [cmpTy]
  | .use .., .qual .., .use .. => by simp [cmpTy]
  | .use .., .qual .., .qual .. => by simp [cmpTy]
  | .use .., .qual .., .func .. => by simp [cmpTy]
  | .use .., .func .., _ => by simp [cmpTy]
  | .qual .., .use .., _ => by simp [cmpTy]
  | .qual .., .func .., _ => by simp [cmpTy]
  | .func .., .use .., .use .. => by simp [cmpTy]
  | .func .., .use .., .qual .. => by simp [cmpTy]
  | .func .., .use .., .func .. => by simp [cmpTy]
  | .func .., .qual .., .use .. => by simp [cmpTy]
  | .func .., .qual .., .qual .. => by simp [cmpTy]
  | .func .., .qual .., .func .. => by simp [cmpTy]
theorem cmpTys_trans (line : Nat → Int) : ∀ As Bs Cs : List Ty, As.length = Bs.length → Bs.length = Cs.length →
    cmpTys line As Bs < 0 → cmpTys line Bs Cs < 0 → cmpTys line As Cs < 0
  | [], _, _, _, _ => by simp [cmpTys]
  | _ :: _, [], _, h, _ => by simp at h
  | _ :: _, _ :: _, [], _, h => by simp at h
  | A :: As, B :: Bs, C :: Cs, hl, hl' => by
    simp only [cmpTys]
    have h1 := cmpTy_trans line A B C
    have h2 := cmpTys_trans line As Bs Cs (by simpa using hl) (by simpa using hl')
    have hz := cmpTy_zero line A B C
    have hz' := cmpTy_zero line B C A
    have n1 := cmpTy_neg line B A
    have n2 := cmpTy_neg line C A
    split <;> split <;> split <;> omega
end

mutual
/-- the declarations of a type -/
def Ty.decls : Ty → List Nat
  | .use d => [d]
  | .qual S d => d :: S.decls
  | .func Ps R => declsOf Ps ++ R.decls
def declsOf : List Ty → List Nat
  | [] => []
  | P :: Ps => P.decls ++ declsOf Ps
end

mutual
theorem cmpTy_eq (line : Nat → Int) : ∀ A B : Ty, (∀ d ∈ A.decls, ∀ e ∈ B.decls, line d = line e → d = e) →
    cmpTy line A B = 0 → A = B
  | .use d, .use e => by
    intro hl h
    simp only [cmpTy] at h
    rw [hl d (by simp [Ty.decls]) e (by simp [Ty.decls]) (by omega)]
  | .qual S d, .qual T e => by
    intro hl
    have ih := cmpTy_eq line S T (fun d hd e he => hl d (by simp [Ty.decls, hd]) e (by simp [Ty.decls, he]))
    simp only [cmpTy]
    split
    · omega
    · rename_i h
      push Not at h
      intro h2
      rw [ih h2, hl d (by simp [Ty.decls]) e (by simp [Ty.decls]) h]
  | .func Ps R, .func Qs S => by
    intro hl
    have ih := cmpTy_eq line R S (fun d hd e he => hl d (by simp [Ty.decls, hd]) e (by simp [Ty.decls, he]))
    have ih2 := cmpTys_eq line Ps Qs (fun d hd e he => hl d (by simp [Ty.decls, hd]) e (by simp [Ty.decls, he]))
    simp only [cmpTy]
    split
    · split <;> omega
    · rename_i h
      push Not at h
      split
      · omega
      · rename_i h2
        push Not at h2
        intro h3
        rw [ih h2, ih2 h h3]
  | .use .., .qual .. => by simp [cmpTy]
  | .use .., .func .. => by simp [cmpTy]
  | .qual .., .use .. => by simp [cmpTy]
  | .qual .., .func .. => by simp [cmpTy]
  | .func .., .use .. => by simp [cmpTy]
  | .func .., .qual .. => by simp [cmpTy]
theorem cmpTys_eq (line : Nat → Int) : ∀ As Bs : List Ty, (∀ d ∈ declsOf As, ∀ e ∈ declsOf Bs, line d = line e → d = e) →
    As.length = Bs.length → cmpTys line As Bs = 0 → As = Bs
  | [], [], _, _ => by simp
  | [], _ :: _, _, h => by simp at h
  | _ :: _, [], _, h => by simp at h
  | A :: As, B :: Bs, hl, hlen => by
    have ih := cmpTy_eq line A B (fun d hd e he => hl d (by simp [declsOf, hd]) e (by simp [declsOf, he]))
    have ih2 := cmpTys_eq line As Bs (fun d hd e he => hl d (by simp [declsOf, hd]) e (by simp [declsOf, he]))
      (by simpa using hlen)
    simp only [cmpTys]
    split
    · intro h; omega
    · rename_i h
      push Not at h
      intro h2
      rw [ih h, ih2 h2]
end

end Aps.CType

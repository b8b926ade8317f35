import Verif.Spec.Util
import Verif.Proofs.AstCopy
import Mathlib.Tactic.Common
/-! # Proofs about the functions of aps-util -/
namespace Aps.Util
open Aps.Ast

/-- All functions. -/
def Fn.all : List Fn := [.replacement_from, .replacement_to, .renaming_def, .renaming_old, .some_use_u, .formal_def,
  .formal_type, .some_type_formal_def, .some_type_formal_sig, .declaration_def, .some_class_decl_def,
  .some_class_decl_type_formals, .some_class_decl_result_type, .some_class_decl_parent, .some_class_decl_contents,
  .some_type_decl_def, .some_type_decl_sig, .some_type_decl_type, .some_value_decl_type, .assign_lhs, .assign_rhs,
  .some_function_decl_def, .some_function_decl_type, .some_function_decl_body, .some_case_stmt_expr,
  .some_case_stmt_matchers]

theorem Fn.mem_all (f : Fn) : f ∈ Fn.all := by cases f <;> decide

/-- The accessor that a function ends in for a constructor. -/
def target (f : Fn) (c : Con) : Option Acc :=
  match find c (cases f) with
  | none => none
  | some (.acc a) => some a
  | some (.fn g) => match find c (cases g) with
    | some (.acc a) => some a
    | _ => none

/-- The tables agree with the patterns of the grammar. -/
theorem tables : ∀ f ∈ Fn.all, ∀ c ∈ Con.all,
    match find c (patternField f) with
    | some i => c.phylum = .Declaration ∧ ∃ a, target f c = some a ∧ (c.fields[i]?).map Prod.snd = some a
    | none => find c (cases f) = none := by
  have h : ∀ f ∈ Fn.all, ∀ c ∈ Con.all,
    (match find c (patternField f) with
    | some i => decide (c.phylum = .Declaration) && (target f c).isSome && decide ((c.fields[i]?).map Prod.snd = target f c)
    | none => decide (find c (cases f) = none)) = true := by decide +kernel
  intro f hf c hc
  have := h f hf c hc
  cases hp : find c (patternField f) with
  | none => simp only [hp] at this; simpa using this
  | some i =>
    simp only [hp, Bool.and_eq_true, decide_eq_true_eq, Option.isSome_iff_exists] at this
    obtain ⟨⟨h1, a, ha⟩, h2⟩ := this
    exact ⟨h1, a, ha, h2.trans ha⟩

theorem run_target {fuel : Nat} {f : Fn} {c : Con} {a : Acc} (h : target f c = some a) (hp : c.phylum = .Declaration)
    (ad line : Nat) (kids : List Val) : run (fuel + 2) f (.node ad (opNum c) line kids) = get a (.node ad (opNum c) line kids) := by
  unfold target at h
  simp only [run, key_node, hp, if_true, Res.ok_bind]
  cases hf : find c (cases f) with
  | none => rw [hf] at h; cases h
  | some x =>
    rw [hf] at h
    cases x with
    | acc b => simp only at h; cases h; rfl
    | fn g =>
      simp only at h ⊢
      cases hg : find c (cases g) with
      | none => rw [hg] at h; cases h
      | some y =>
        rw [hg] at h
        cases y with
        | acc b => simp only at h; cases h; rfl
        | fn g' => cases h

theorem run_eq (f : Fn) (c : Con) (hp : c.phylum = .Declaration) (ad line : Nat) (kids : List Val)
    (hl : c.fields.length = kids.length) (fuel : Nat) :
    (∀ i, find c (patternField f) = some i → ∃ x, kids[i]? = some x ∧ run (fuel + 2) f (.node ad (opNum c) line kids) = .ok x) ∧
    (find c (patternField f) = none → run (fuel + 2) f (.node ad (opNum c) line kids) = .stop) := by
  have ht := tables f (Fn.mem_all f) c (Con.mem_all c)
  constructor
  · intro i hi
    rw [hi] at ht
    obtain ⟨-, a, ha, hf⟩ := ht
    cases hg : c.fields[i]? with
    | none => rw [hg] at hf; cases hf
    | some ka =>
      rw [hg] at hf
      simp only [Option.map_some, Option.some.injEq] at hf
      subst hf
      have hi' : i < kids.length := by
        have := (List.getElem?_eq_some_iff.1 hg).1; omega
      refine ⟨kids[i], by simp [hi'], ?_⟩
      rw [run_target ha hp, get_at hg, if_pos rfl]
      simp [List.getElem?_eq_getElem hi']
  · intro hn
    rw [hn] at ht
    simp only at ht
    simp [run, key_node, hp, ht]

theorem find_of_mem (f : Fn) {c : Con} {i : Nat} (h : (c, i) ∈ patternField f) : find c (patternField f) = some i := by
  have key : ∀ f ∈ Fn.all, ∀ x ∈ patternField f, find x.1 (patternField f) = some x.2 := by decide +kernel
  exact key f (Fn.mem_all f) _ h

theorem use_tables : ∀ c ∈ Con.all, (match find c usePattern with
    | some i => decide (i = 0) && (match find c.phylum useCases with
      | some a => decide ((c.fields[i]?).map Prod.snd = some a)
      | none => false)
    | none => match find c.phylum useCases with
      | some a => decide ((accTable a).2.1 ≠ c ∧ (accTable a).1 = c.phylum)
      | none => true) = true := by decide +kernel

theorem get_other {a : Acc} {c : Con} (h : (accTable a).2.1 ≠ c) (hp : (accTable a).1 = c.phylum) (ad line : Nat) (kids : List Val) :
    get a (.node ad (opNum c) line kids) = .stop := by
  simp only [Ast.get, hp, key_node, if_true, Res.ok_bind]
  rw [if_neg (fun e => h e.symm)]

theorem someUse_eq (c : Con) (ad line : Nat) (kids : List Val) (hl : c.fields.length = kids.length) :
    (∀ i, find c usePattern = some i → ∃ x, kids[i]? = some x ∧ someUse (.node ad (opNum c) line kids) = .ok x) ∧
    (find c usePattern = none → someUse (.node ad (opNum c) line kids) = .stop) := by
  have ht := use_tables c (Con.mem_all c)
  simp only [someUse, tnodePhylum, phylum_table, Res.ok_bind]
  cases hu : find c usePattern with
  | some i =>
    simp only [hu] at ht
    refine ⟨fun j hj => ?_, fun h => by cases h⟩
    cases hj
    cases hp : find c.phylum useCases with
    | none => simp [hp] at ht
    | some a =>
      simp only [hp, Bool.and_eq_true, decide_eq_true_eq] at ht
      cases hg : c.fields[i]? with
      | none => rw [hg] at ht; cases ht.2
      | some ka =>
        rw [hg] at ht
        simp only [Option.map_some, Option.some.injEq] at ht
        obtain ⟨-, rfl⟩ := ht
        have hi' : i < kids.length := by
          have := (List.getElem?_eq_some_iff.1 hg).1; omega
        refine ⟨kids[i], by simp [hi'], ?_⟩
        simp only
        rw [get_at hg, if_pos rfl]
        simp [List.getElem?_eq_getElem hi']
  | none =>
    simp only [hu] at ht
    refine ⟨fun j hj => (by cases hj), fun _ => ?_⟩
    cases hp : find c.phylum useCases with
    | none => rfl
    | some a =>
      simp only [hp, decide_eq_true_eq] at ht
      exact get_other ht.1 ht.2 ad line kids

/-! ## Loops -/

/-- What holds of each type of sequences. -/
structure Ok (T : SeqType) (e : Phylum) : Prop where
  nil : T.nil.phylum = T.ph ∧ T.nil.fields = []
  list : T.list.phylum = T.ph ∧ T.list.fields = [(.ph e, T.elem)]
  append : T.append.phylum = T.ph ∧ T.append.fields = [(.ph T.ph, T.l1), (.ph T.ph, T.l2)]
  ne : T.nil ≠ T.list ∧ T.nil ≠ T.append ∧ T.list ≠ T.append
  only : ∀ c : Con, c.phylum = T.ph → c = T.nil ∨ c = T.list ∨ c = T.append
  elem : e ≠ T.ph

theorem seqTypes_ok : ∀ T ∈ seqTypes, ∃ e, Ok T e := by
  have key : ∀ T ∈ seqTypes, ∃ e ∈ Phylum.all, (T.nil.phylum = T.ph ∧ T.nil.fields = []) ∧
      (T.list.phylum = T.ph ∧ T.list.fields = [(.ph e, T.elem)]) ∧
      (T.append.phylum = T.ph ∧ T.append.fields = [(.ph T.ph, T.l1), (.ph T.ph, T.l2)]) ∧
      (T.nil ≠ T.list ∧ T.nil ≠ T.append ∧ T.list ≠ T.append) ∧
      (∀ c ∈ Con.all, c.phylum = T.ph → c = T.nil ∨ c = T.list ∨ c = T.append) ∧ e ≠ T.ph := by decide +kernel
  intro T hT
  obtain ⟨e, -, h1, h2, h3, h4, h5, h6⟩ := key T hT
  exact ⟨e, h1, h2, h3, h4, fun c => h5 c (Con.mem_all c), h6⟩

theorem elems_own {ph : Phylum} {c : Con} (h : c.phylum = ph) (a line : Nat) (kids : List Val) :
    elems ph (.node a (opNum c) line kids) = elemsAll ph kids := by
  rw [elems, op_find]; simp [h]

theorem elems_other {ph e : Phylum} {v : Val} (hv : Conforms (.ph e) v) (h : e ≠ ph) : elems ph v = [v] := by
  obtain ⟨c, a, line, kids, rfl, hp, -⟩ := conforms_ph hv
  rw [elems, op_find]; simp [hp, h]

theorem each_append {σ : Type} (body : σ → Val → Res σ) (xs ys : List Val) (s : σ) :
    each body (xs ++ ys) s = (each body xs s).bind (each body ys) := by
  induction xs generalizing s with
  | nil => rfl
  | cons x xs ih =>
    simp only [List.cons_append, each]
    cases body s x <;> simp [Res.bind, ih]

theorem loop_step {σ : Type} {T : SeqType} {e : Phylum} (hT : Ok T e) (body : σ → Val → Res σ) (v : Val) :
    Conforms (.ph T.ph) v → ∃ N, ∀ st s fuel, forLoop T body (N + fuel) (v :: st) s =
      (each body (elems T.ph v) s).bind (forLoop T body fuel st) := by
  refine Val.ind (P := fun v => Conforms (.ph T.ph) v → ∃ N, ∀ st s fuel, forLoop T body (N + fuel) (v :: st) s =
      (each body (elems T.ph v) s).bind (forLoop T body fuel st))
    (by simp [Conforms]) (by simp [Conforms]) (by simp [Conforms]) (by simp [Conforms]) ?_ v
  intro a op line kids ih hc
  obtain ⟨c, hp, rfl, hf⟩ := conforms_node.1 hc
  rcases hT.only c hp with rfl | rfl | rfl
  · rw [hT.nil.2] at hf
    cases hf
    refine ⟨1, fun st s fuel => ?_⟩
    rw [Nat.add_comm 1, elems_own hp]
    simp [forLoop, key_node, hp, elemsAll, each, Res.bind]
  · rw [hT.list.2] at hf
    obtain ⟨x, l, h1, h2, rfl⟩ := List.forall₂_cons_left_iff.1 hf
    cases h2
    have g := get_at (c := T.list) (i := 0) (ka := (.ph e, T.elem)) (by rw [hT.list.2]; rfl) T.list a line [x]
    simp only [if_true, List.getElem?_cons_zero] at g
    refine ⟨1, fun st s fuel => ?_⟩
    rw [Nat.add_comm 1, elems_own hp]
    simp only [elemsAll, elems_other h1 hT.elem, List.append_nil, each]
    simp only [forLoop, key_node, hp, if_true, Res.ok_bind, g, if_neg (Ne.symm hT.ne.1)]
    cases body s x <;> rfl
  · rw [hT.append.2] at hf
    obtain ⟨x, l, h1, h2, rfl⟩ := List.forall₂_cons_left_iff.1 hf
    obtain ⟨y, l, h3, h4, rfl⟩ := List.forall₂_cons_left_iff.1 h2
    cases h4
    have g1 := get_at (c := T.append) (i := 0) (ka := (.ph T.ph, T.l1)) (by rw [hT.append.2]; rfl) T.append a line [x, y]
    have g2 := get_at (c := T.append) (i := 1) (ka := (.ph T.ph, T.l2)) (by rw [hT.append.2]; rfl) T.append a line [x, y]
    simp only [if_true, List.getElem?_cons_zero, List.getElem?_cons_succ] at g1 g2
    obtain ⟨N1, ih1⟩ := ih x (by simp) h1
    obtain ⟨N2, ih2⟩ := ih y (by simp) h3
    refine ⟨N1 + N2 + 1, fun st s fuel => ?_⟩
    rw [show N1 + N2 + 1 + fuel = (N1 + (N2 + fuel)) + 1 by omega, elems_own hp]
    simp only [elemsAll, List.append_nil, each_append]
    simp only [forLoop, key_node, hp, if_true, Res.ok_bind, g1, g2, if_neg (Ne.symm hT.ne.2.1), if_neg (Ne.symm hT.ne.2.2)]
    rw [ih1]
    cases each body (elems T.ph x) s with
    | ok s1 => simp only [Res.bind]; rw [ih2]; rfl
    | _ => rfl

end Aps.Util

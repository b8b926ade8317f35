import Verif.Proofs.Ast
import Mathlib.Data.List.Nodup

/-!
# Proofs about constructor functions and copying
-/
namespace Aps.Ast

theorem find_mem {α β : Type} [DecidableEq α] {k : α} {b : β} : ∀ {l : List (α × β)},
    find k l = some b → (k, b) ∈ l
  | [], h => by simp [find] at h
  | (a, b') :: l, h => by
    simp only [find] at h
    split at h
    · rename_i hk; subst hk; cases h; exact List.mem_cons_self
    · exact List.mem_cons_of_mem _ (find_mem h)

theorem key_ok {p : Phylum} {v : Val} {c : Con} :
    key p v = .ok c ↔ c.phylum = p ∧ ∃ a line kids, v = .node a (opNum c) line kids := by
  constructor
  · intro h
    cases v with
    | node a op line kids =>
      simp only [key] at h
      split at h
      · rename_i c' hf
        cases h
        have := key_table_only p (Phylum.mem_all p) _ (find_mem hf)
        exact ⟨this.2, a, line, kids, by simp [this.1]⟩
      · cases h
    | _ => simp [key] at h
  · rintro ⟨rfl, a, line, kids, rfl⟩
    simp [key_node]

/-- The argument passes the check of a field. -/
def Passes : Kind → Val → Prop
  | .ph p, v => ∃ c : Con, c.phylum = p ∧ ∃ a line kids, v = .node a (opNum c) line kids
  | .leaf _, _ => True

theorem assertKind_ok {k : Kind} {v : Val} : assertKind k v = .ok () ↔ Passes k v := by
  cases k with
  | leaf l => simp [assertKind, Passes]
  | ph p =>
    simp only [assertKind, Passes]
    constructor
    · intro h
      cases hk : key p v with
      | ok c => exact ⟨c, key_ok.1 hk⟩
      | _ => simp [hk] at h
    · rintro ⟨c, hc⟩
      simp [key_ok.2 hc]

theorem assertKind_stop {k : Kind} {v : Val} (ht : CTyped k v) (h : ¬ Passes k v) :
    assertKind k v = .stop := by
  cases k with
  | leaf l => simp [Passes] at h
  | ph p =>
    cases v with
    | null => rfl
    | node a op line kids =>
      simp only [assertKind]
      cases hk : key p (.node a op line kids) with
      | ok c => exact absurd ⟨c, key_ok.1 hk⟩ h
      | stop => rfl
      | ub => simp only [key] at hk; split at hk <;> cases hk
      | nofuel => simp only [key] at hk; split at hk <;> cases hk
    | _ => simp [CTyped] at ht

theorem assertAll_ok : ∀ {ks : List (Kind × Acc)} {vs : List Val},
    assertAll (ks.map Prod.fst) vs = .ok () ↔ List.Forall₂ (fun ka x => Passes ka.1 x) ks vs
  | [], [] => by simp [assertAll]
  | [], _ :: _ => by simp [assertAll]
  | _ :: _, [] => by simp [assertAll]
  | k :: ks, v :: vs => by
    simp only [List.map_cons, assertAll, List.forall₂_cons]
    cases hk : assertKind k.1 v with
    | ok u => simp [assertKind_ok.1 hk, assertAll_ok]
    | _ =>
      have : ¬ Passes k.1 v := fun hp => by rw [assertKind_ok.2 hp] at hk; cases hk
      simp [this]

theorem assertAll_stop : ∀ {ks : List (Kind × Acc)} {vs : List Val},
    List.Forall₂ (fun ka x => CTyped ka.1 x) ks vs →
    ¬ List.Forall₂ (fun ka x => Passes ka.1 x) ks vs →
    assertAll (ks.map Prod.fst) vs = .stop := by
  intro ks vs h
  induction h with
  | nil => intro h; exact absurd .nil h
  | @cons k v ks vs ht hts ih =>
    intro h
    simp only [List.map_cons, assertAll]
    by_cases hp : Passes k.1 v
    · rw [assertKind_ok.2 hp]
      exact ih (fun hall => h (.cons hp hall))
    · rw [assertKind_stop ht hp]; rfl

theorem stores_from (args : List Val) : ∀ (m j : Nat) (kids : List Val),
    j + m = args.length → kids.length = args.length → kids.take j = args.take j →
    stores args ((List.range' j m).map fun i => (i, i)) kids = .ok args := by
  intro m
  induction m with
  | zero =>
    intro j kids hj hl ht
    simp only [List.range'_zero, List.map_nil, stores]
    have h1 : kids.take j = kids := List.take_of_length_le (by omega)
    have h2 : args.take j = args := List.take_of_length_le (by omega)
    rw [h1, h2] at ht
    rw [ht]
  | succ m ih =>
    intro j kids hj hl ht
    have hja : j < args.length := by omega
    simp only [List.range'_succ, List.map_cons, stores, List.getElem?_eq_getElem hja]
    rw [if_pos (by omega)]
    refine ih (j + 1) _ (by omega) (by simpa using hl) ?_
    rw [List.take_add_one, List.take_add_one, List.take_set_of_le (Nat.le_refl j), ht]
    simp [hja, hl]

theorem build_eq (c : Con) (args : List Val) (e : Env) :
    build c args e = (do
      let _ ← assertAll (c.fields.map Prod.fst) args
      pure (.node e.next (opNum c) e.line args, { e with next := e.next + 1 })) := by
  obtain ⟨h1, h2, h3⟩ := build_table c
  simp only [build, h1, h2, h3]
  cases h : assertAll (c.fields.map Prod.fst) args with
  | ok u =>
    have hl := (assertAll_ok.1 h).length_eq
    have := stores_from args args.length 0 (List.replicate c.fields.length .null)
      (by simp) (by simp [hl]) (by simp)
    rw [List.range_eq_range', hl]
    rw [hl] at this
    simp only [Res.ok_bind, this]
  | _ => rfl

theorem conforms_passes {k : Kind} {v : Val} (h : Conforms k v) : Passes k v := by
  cases k with
  | leaf l => trivial
  | ph p =>
    obtain ⟨c, a, line, kids, rfl, hp, _⟩ := conforms_ph h
    exact ⟨c, hp, a, line, kids, rfl⟩

theorem made_conforms {v : Val} (h : Made v) : v = .null ∨ ∃ k, Conforms k v := by
  induction h with
  | null => exact .inl rfl
  | sym n => exact .inr ⟨.leaf .symbol, trivial⟩
  | str n => exact .inr ⟨.leaf .string, trivial⟩
  | bool n => exact .inr ⟨.leaf .boolean, trivial⟩
  | call c args e v e' h ht hb ih =>
    right
    rw [build_eq] at hb
    cases ha : assertAll (c.fields.map Prod.fst) args with
    | ok u =>
      rw [ha] at hb
      simp only [Res.ok_bind, Res.pure_eq, Res.ok.injEq, Prod.mk.injEq] at hb
      obtain ⟨rfl, _⟩ := hb
      refine ⟨.ph c.phylum, conforms_node.2 ⟨c, rfl, rfl, ?_⟩⟩
      have hp := assertAll_ok.1 ha
      clear ha h
      generalize c.fields = ks at ht hp
      induction ht with
      | nil => exact .nil
      | @cons ka x ks xs htx _ ih2 =>
        cases hp with
        | cons hpx hp =>
          refine .cons ?_ (ih2 (fun y hy => ih y (List.mem_cons_of_mem _ hy)) hp)
          have hx := ih x List.mem_cons_self
          obtain ⟨k, acc⟩ := ka
          cases k with
          | leaf l => cases l <;> cases x <;> simp_all [CTyped, Conforms]
          | ph p =>
            obtain ⟨d, rfl, a, line, kids, rfl⟩ := hpx
            rcases hx with hx | ⟨k, hk⟩
            · cases hx
            · cases k with
              | leaf l => cases l <;> simp [Conforms] at hk
              | ph p' =>
                obtain ⟨d', h1, h2, h3⟩ := conforms_node.1 hk
                have := op_inj h2
                subst this
                exact conforms_node.2 ⟨d', rfl, rfl, h3⟩
    | _ => simp [ha] at hb

/-! ## Copying -/

/-- What a copy is: the same shape, all nodes new and distinct, all with the line number of the
moment. -/
structure Copied (e : Env) (v v' : Val) (e' : Env) : Prop where
  shape_eq : shape v' = shape v
  line_eq : e'.line = e.line
  le : e.next ≤ e'.next
  fresh : ∀ x ∈ nodes v', lineOf x = some e.line ∧ ∃ a, addrOf x = some a ∧ e.next ≤ a ∧ a < e'.next
  distinct : ((nodes v').map addrOf).Nodup

/-- The same for lists. -/
structure CopiedAll (e : Env) (v v' : List Val) (e' : Env) : Prop where
  shape_eq : shapeAll v' = shapeAll v
  line_eq : e'.line = e.line
  le : e.next ≤ e'.next
  fresh : ∀ x ∈ nodesAll v',
    lineOf x = some e.line ∧ ∃ a, addrOf x = some a ∧ e.next ≤ a ∧ a < e'.next
  distinct : ((nodesAll v').map addrOf).Nodup

/-- What the induction says of a child. -/
def Copies (k : Kind) (v : Val) : Prop :=
  ∃ N, ∀ fuel, N ≤ fuel → ∀ e, ∃ v' e', copy fuel k e v = .ok (v', e') ∧ Conforms k v' ∧
    Copied e v v' e'

theorem copies_args (v : Val) (ks : List (Kind × Acc)) (kids : List Val)
    (hg : List.Forall₂ (fun ka x => get ka.2 v = .ok x) ks kids)
    (hc : List.Forall₂ (fun ka x => Conforms ka.1 x) ks kids)
    (hw : ∀ x ∈ kids, ∀ k, Conforms k x → Copies k x) :
    ∃ N, ∀ fuel, N ≤ fuel → ∀ e, ∃ vs e', copyArgs (copy fuel) ks e v = .ok (vs, e') ∧
      List.Forall₂ (fun ka x => Conforms ka.1 x) ks vs ∧ CopiedAll e kids vs e' := by
  induction hg with
  | nil =>
    exact ⟨0, fun fuel _ e => ⟨[], e, by simp [copyArgs], .nil, by simp [shapeAll], rfl,
      Nat.le_refl _, by simp [nodesAll], by simp [nodesAll]⟩⟩
  | @cons ka x ks kids hx _ ih =>
    cases hc with
    | cons hcx hc =>
      obtain ⟨N, hN⟩ := ih hc (fun y hy => hw y (List.mem_cons_of_mem _ hy))
      obtain ⟨M, hM⟩ := hw x List.mem_cons_self ka.1 hcx
      refine ⟨max N M, fun fuel hf e => ?_⟩
      obtain ⟨x', e1, h1, h2, h3⟩ := hM fuel (by omega) e
      obtain ⟨vs, e2, h4, h5, h6⟩ := hN fuel (by omega) e1
      refine ⟨x' :: vs, e2, ?_, .cons h2 h5, ?_⟩
      · simp [copyArgs, hx, h1, h4]
      · refine ⟨by simp [shapeAll, h3.shape_eq, h6.shape_eq], h6.line_eq.trans h3.line_eq,
          Nat.le_trans h3.le h6.le, ?_, ?_⟩
        · intro y hy
          rcases List.mem_append.1 (by simpa [nodesAll] using hy) with hy | hy
          · obtain ⟨hl, a, ha, h7, h8⟩ := h3.fresh y hy
            exact ⟨hl, a, ha, h7, Nat.lt_of_lt_of_le h8 h6.le⟩
          · obtain ⟨hl, a, ha, h7, h8⟩ := h6.fresh y hy
            exact ⟨by rw [hl, h3.line_eq], a, ha, Nat.le_trans h3.le h7, h8⟩
        · simp only [nodesAll, List.map_append]
          refine List.Nodup.append h3.distinct h6.distinct ?_
          intro o ho ho'
          obtain ⟨y, hy, rfl⟩ := List.mem_map.1 ho
          obtain ⟨z, hz, hyz⟩ := List.mem_map.1 ho'
          obtain ⟨_, a, ha, _, h8⟩ := h3.fresh y hy
          obtain ⟨_, b, hb, h9, _⟩ := h6.fresh z hz
          rw [ha, hb] at hyz
          cases hyz
          omega

theorem copies_leaf {l : Leaf} {v : Val} (h : Conforms (.leaf l) v) : Copies (.leaf l) v := by
  refine ⟨1, fun fuel hf e => ⟨v, e, ?_, h, rfl, rfl, Nat.le_refl _, ?_, ?_⟩⟩
  · obtain ⟨m, rfl⟩ : ∃ m, fuel = m + 1 := ⟨fuel - 1, by omega⟩
    rfl
  · cases v <;> cases l <;> simp_all [Conforms, nodes]
  · cases v <;> cases l <;> simp_all [Conforms, nodes]

theorem copies (v : Val) : ∀ k, Conforms k v → Copies k v := by
  refine Val.ind (P := fun v => ∀ k, Conforms k v → Copies k v) ?_ ?_ ?_ ?_ ?_ v
  · rintro (p | l) h; · simp [Conforms] at h
    exact copies_leaf h
  · rintro n (p | l) h; · simp [Conforms] at h
    exact copies_leaf h
  · rintro n (p | l) h; · simp [Conforms] at h
    exact copies_leaf h
  · rintro n (p | l) h; · simp [Conforms] at h
    exact copies_leaf h
  · rintro a op line kids ih (p | l) hk
    swap
    · exact copies_leaf hk
    obtain ⟨c, rfl, rfl, hc⟩ := conforms_node.1 hk
    obtain ⟨N, hN⟩ := copies_args _ _ kids (gets c a line kids hc.length_eq) hc ih
    refine ⟨N + 1, fun fuel hf e => ?_⟩
    obtain ⟨m, rfl⟩ : ∃ m, fuel = m + 1 := ⟨fuel - 1, by omega⟩
    obtain ⟨vs, e1, h1, h2, h3⟩ := hN m (by omega) e
    have hb : build c vs e1 =
        .ok (.node e1.next (opNum c) e1.line vs, { e1 with next := e1.next + 1 }) := by
      rw [build_eq, assertAll_ok.2 (h2.imp fun _ _ h => conforms_passes h)]
      rfl
    refine ⟨.node e1.next (opNum c) e1.line vs, { e1 with next := e1.next + 1 }, ?_,
      conforms_node.2 ⟨c, rfl, rfl, h2⟩, ?_⟩
    · simp only [copy, key_node, if_pos, Res.ok_bind, copy_table, h1, hb]
    · refine ⟨by simp [shape, h3.shape_eq], h3.line_eq, Nat.le_succ_of_le h3.le, ?_, ?_⟩
      · intro x hx
        rcases List.mem_cons.1 (by simpa [nodes] using hx) with rfl | hx
        · exact ⟨by simp [lineOf, h3.line_eq], _, rfl, h3.le, Nat.lt_succ_self _⟩
        · obtain ⟨hl, b, hb, h7, h8⟩ := h3.fresh x hx
          exact ⟨hl, b, hb, h7, Nat.lt_succ_of_lt h8⟩
      · simp only [nodes, List.map_cons, List.nodup_cons]
        refine ⟨?_, h3.distinct⟩
        intro hmem
        obtain ⟨y, hy, hya⟩ := List.mem_map.1 hmem
        obtain ⟨_, b, hb, _, h8⟩ := h3.fresh y hy
        rw [hb] at hya
        simp [addrOf] at hya
        omega

end Aps.Ast

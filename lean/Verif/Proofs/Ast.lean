import Verif.Spec.Ast
import Mathlib.Tactic.Common

/-!
# Proofs about the abstract syntax tree
-/
namespace Aps.Ast

theorem Con.mem_all (c : Con) : c ∈ Con.all := by cases c <;> decide

theorem Phylum.mem_all (p : Phylum) : p ∈ Phylum.all := by cases p <;> decide

theorem key_table : ∀ p ∈ Phylum.all, ∀ c ∈ Con.all,
    find (opNum c) (keyTable p) = if c.phylum = p then some c else none := by decide +kernel

theorem find_key (p : Phylum) (c : Con) :
    find (opNum c) (keyTable p) = if c.phylum = p then some c else none :=
  key_table p (Phylum.mem_all p) c (Con.mem_all c)

theorem key_table_only : ∀ p ∈ Phylum.all, ∀ x ∈ keyTable p, opNum x.2 = x.1 ∧ x.2.phylum = p := by
  decide +kernel

theorem acc_table : ∀ c ∈ Con.all, ∀ i : Fin c.fields.length,
    accTable (c.fields[(i : Nat)]).2 = (c.phylum, c, (i : Nat)) := by decide +kernel

theorem trav_table (c : Con) : find c (travTable c.phylum) = some c.fields := by
  cases c <;> rfl

theorem dump_table : ∀ c ∈ Con.all, find c (dumpTable c.phylum) = some (c.name, c.fields) := by
  decide +kernel

theorem copy_table (c : Con) : find c (copyTable c.phylum) = some (c, c.fields) := by
  cases c <;> rfl

theorem build_table (c : Con) : arityNum c = c.fields.length ∧
    assertTable c = c.fields.map Prod.fst ∧
    storeTable c = (List.range c.fields.length).map fun i => (i, i) := by
  cases c <;> exact ⟨rfl, rfl, rfl⟩

theorem phylum_table (c : Con) : find (opNum c) phylumTable = some c.phylum := by
  have : ∀ c ∈ Con.all, find (opNum c) phylumTable = some c.phylum := by decide +kernel
  exact this c (Con.mem_all c)

theorem phylum_table_only : ∀ x ∈ phylumTable, ∃ c ∈ Con.all, opNum c = x.1 ∧ c.phylum = x.2 := by
  decide +kernel

theorem op_inj {c d : Con} (h : opNum c = opNum d) : c = d := by
  have := find_key c.phylum c
  have h2 := find_key c.phylum d
  rw [h, h2] at this
  by_cases hp : d.phylum = c.phylum <;> simp [hp] at this
  exact this.symm

theorem op_find (c : Con) : Con.all.find? (fun d => opNum d == opNum c) = some c := by
  have h : ∀ c ∈ Con.all, Con.all.find? (fun d => opNum d == opNum c) = some c := by
    decide +kernel
  exact h c (Con.mem_all c)

/-! ## Induction on trees -/

theorem Val.ind {P : Val → Prop} (hnull : P .null) (hsym : ∀ n, P (.sym n)) (hstr : ∀ s, P (.str s))
    (hbool : ∀ b, P (.bool b))
    (hnode : ∀ a op line kids, (∀ x ∈ kids, P x) → P (.node a op line kids)) : ∀ v, P v := by
  intro v
  refine Val.rec (motive_1 := P) (motive_2 := fun l => ∀ x ∈ l, P x) hnull hnode hsym hstr hbool
    ?_ ?_ v
  · intro x hx; cases hx
  · intro v vs ih ih2 x hx
    rcases List.mem_cons.1 hx with rfl | hx
    · exact ih
    · exact ih2 x hx

theorem conformsAll_iff (ks : List (Kind × Acc)) : ∀ vs,
    ConformsAll (ks.map Prod.fst) vs ↔ List.Forall₂ (fun ka x => Conforms ka.1 x) ks vs := by
  induction ks with
  | nil => intro vs; cases vs <;> simp [ConformsAll]
  | cons k ks ih => intro vs; cases vs <;> simp [ConformsAll, ih]

theorem conforms_node {p : Phylum} {a op line kids} :
    Conforms (.ph p) (.node a op line kids) ↔
      ∃ c : Con, c.phylum = p ∧ opNum c = op ∧
        List.Forall₂ (fun ka x => Conforms ka.1 x) c.fields kids := by
  simp only [Conforms, conformsAll_iff]

theorem conforms_ph {p : Phylum} {v : Val} (h : Conforms (.ph p) v) :
    ∃ (c : Con) (a line : Nat) (kids : List Val), v = .node a (opNum c) line kids ∧ c.phylum = p ∧
      List.Forall₂ (fun ka x => Conforms ka.1 x) c.fields kids := by
  cases v with
  | node a op line kids =>
    obtain ⟨c, h1, h2, h3⟩ := conforms_node.1 h
    exact ⟨c, a, line, kids, by rw [h2], h1, h3⟩
  | _ => simp [Conforms] at h

/-! ## Accessors -/

theorem key_node (p : Phylum) (c : Con) (a line : Nat) (kids : List Val) :
    key p (.node a (opNum c) line kids) = if c.phylum = p then .ok c else .stop := by
  simp only [key, find_key]
  by_cases h : c.phylum = p <;> simp [h]

theorem acc_at {c : Con} {i : Nat} {ka : Kind × Acc} (h : c.fields[i]? = some ka) :
    accTable ka.2 = (c.phylum, c, i) := by
  obtain ⟨hi, h⟩ := List.getElem?_eq_some_iff.1 h
  have := acc_table c (Con.mem_all c) ⟨i, hi⟩
  simpa [h] using this

theorem get_at {c : Con} {i : Nat} {ka : Kind × Acc} (h : c.fields[i]? = some ka) (d : Con)
    (a line : Nat) (kids : List Val) :
    get ka.2 (.node a (opNum d) line kids) =
      if d = c then (match kids[i]? with | some x => .ok x | none => .ub) else .stop := by
  simp only [get, acc_at h, key_node]
  by_cases hd : d = c
  · subst hd
    simp only [if_true, Res.ok_bind]
    cases kids[i]? <;> rfl
  · by_cases hp : d.phylum = c.phylum <;> simp [hp, hd]

theorem gets_from (c : Con) (a line : Nat) (kids : List Val) : ∀ (n : Nat),
    (c.fields.drop n).length = (kids.drop n).length →
    List.Forall₂ (fun ka x => get ka.2 (.node a (opNum c) line kids) = .ok x)
      (c.fields.drop n) (kids.drop n) := by
  intro n
  induction hk : (c.fields.drop n).length generalizing n with
  | zero =>
    intro h
    have h1 := List.length_eq_zero_iff.1 hk
    have h2 := List.length_eq_zero_iff.1 h.symm
    rw [h1, h2]
    exact .nil
  | succ m ih =>
    intro h
    have hf : n < c.fields.length := by simp at hk; omega
    have hkk : n < kids.length := by simp at h; omega
    rw [List.drop_eq_getElem_cons hf, List.drop_eq_getElem_cons hkk]
    refine .cons ?_ (ih (n + 1) (by simp at hk ⊢; omega) (by simp at h ⊢; omega))
    have := get_at (List.getElem?_eq_getElem hf) c a line kids
    rw [this]
    simp [List.getElem?_eq_getElem hkk]

theorem gets (c : Con) (a line : Nat) (kids : List Val) (h : c.fields.length = kids.length) :
    List.Forall₂ (fun ka x => get ka.2 (.node a (opNum c) line kids) = .ok x) c.fields kids := by
  simpa using gets_from c a line kids 0 (by simpa using h)

/-! ## Traversal -/

section traverse
variable {σ α : Type} (f : σ → α → Val → Res (Option α × σ))

theorem visit_leaf {l : Leaf} {v : Val} (h : Conforms (.leaf l) v) (s : σ) (a : α) :
    visit f s a v = .ok s := by
  cases v <;> cases l <;> simp_all [Conforms, visit]

/-- What the induction says of a child. -/
def Walks (k : Kind) (v : Val) : Prop :=
  ∀ p, k = .ph p → ∃ N, ∀ fuel, N ≤ fuel → ∀ s a, traverse f fuel p s a v = visit f s a v

theorem walk_calls (v : Val) (ks : List (Kind × Acc)) (kids : List Val)
    (hg : List.Forall₂ (fun ka x => get ka.2 v = .ok x) ks kids)
    (hc : List.Forall₂ (fun ka x => Conforms ka.1 x) ks kids)
    (hw : ∀ x ∈ kids, ∀ k, Conforms k x → Walks f k x) :
    ∃ N, ∀ fuel, N ≤ fuel → ∀ s a,
      traverseCalls (traverse f fuel) ks s a v = visitAll f s a kids := by
  induction hg with
  | nil => exact ⟨0, fun fuel _ s a => by simp [traverseCalls, visitAll]⟩
  | @cons ka x ks kids hx _ ih =>
    cases hc with
    | cons hcx hc =>
      obtain ⟨N, hN⟩ := ih hc (fun y hy => hw y (List.mem_cons_of_mem _ hy))
      have hwx := hw x List.mem_cons_self ka.1 hcx
      obtain ⟨k, acc⟩ := ka
      cases k with
      | leaf l =>
        refine ⟨N, fun fuel hf s a => ?_⟩
        simp only [traverseCalls, visitAll, hN fuel hf, visit_leaf f hcx, Res.ok_bind]
      | ph p =>
        obtain ⟨M, hM⟩ := hwx p rfl
        refine ⟨max N M, fun fuel hf s a => ?_⟩
        simp only [traverseCalls, visitAll, hx, Res.ok_bind, hM fuel (by omega)]
        cases visit f s a x <;> simp [hN fuel (by omega)]

theorem skip_node (v : Val) (c : Con) (a line : Nat) (kids : List Val)
    (hv : v = .node a (opNum c) line kids)
    (hc : List.Forall₂ (fun ka x => Conforms ka.1 x) c.fields kids)
    (hw : ∀ x ∈ kids, ∀ k, Conforms k x → Walks f k x) :
    ∃ N, ∀ fuel, N ≤ fuel → ∀ s a,
      traverseSkip f fuel c.phylum s a v = visitAll f s a kids := by
  subst hv
  obtain ⟨N, hN⟩ := walk_calls f _ _ kids (gets c a line kids hc.length_eq) hc hw
  refine ⟨N, fun fuel hf s b => ?_⟩
  simp only [traverseSkip, skipWith, key_node, if_pos, Res.ok_bind, trav_table, hN fuel hf]

theorem walks (v : Val) : ∀ k, Conforms k v → Walks f k v := by
  refine Val.ind (P := fun v => ∀ k, Conforms k v → Walks f k v) ?_ ?_ ?_ ?_ ?_ v
  · rintro k h p rfl; simp [Conforms] at h
  · rintro n k h p rfl; simp [Conforms] at h
  · rintro n k h p rfl; simp [Conforms] at h
  · rintro n k h p rfl; simp [Conforms] at h
  · rintro a op line kids ih k hk p rfl
    obtain ⟨c, hp, rfl, hc⟩ := conforms_node.1 hk
    subst hp
    obtain ⟨N, hN⟩ := skip_node f _ c a line kids rfl hc ih
    refine ⟨N + 1, fun fuel hf s b => ?_⟩
    obtain ⟨m, rfl⟩ : ∃ m, fuel = m + 1 := ⟨fuel - 1, by omega⟩
    simp only [traverse, visit]
    cases f s b (.node a (opNum c) line kids) with
    | ok y =>
      obtain ⟨r, s'⟩ := y
      cases r with
      | none => simp
      | some a' => simpa [traverseSkip] using hN m (by omega) s' a'
    | _ => rfl

end traverse

/-! ## What is visited -/

theorem visit_recorder {α : Type} (keep : Val → Bool) (pass : α → Val → α) (v : Val) :
    ∀ s a, ∃ l : List (Val × α), visit (recorder keep pass) s a v = .ok (s ++ l) ∧
      l.map Prod.fst = reached keep v := by
  refine Val.ind (P := fun v => ∀ s a, ∃ l : List (Val × α),
    visit (recorder keep pass) s a v = .ok (s ++ l) ∧ l.map Prod.fst = reached keep v)
    ?_ ?_ ?_ ?_ ?_ v
  · intro s a; exact ⟨[], by simp [visit], by simp [reached]⟩
  · intro _ s a; exact ⟨[], by simp [visit], by simp [reached]⟩
  · intro _ s a; exact ⟨[], by simp [visit], by simp [reached]⟩
  · intro _ s a; exact ⟨[], by simp [visit], by simp [reached]⟩
  · intro ad op line kids ih s a
    have hall : ∀ s a, ∃ l : List (Val × α), visitAll (recorder keep pass) s a kids = .ok (s ++ l) ∧
        l.map Prod.fst = reachedAll keep kids := by
      clear s a
      induction kids with
      | nil => intro s a; exact ⟨[], by simp [visitAll], by simp [reachedAll]⟩
      | cons x xs ihx =>
        intro s a
        obtain ⟨l, h1, h2⟩ := ih x List.mem_cons_self s a
        obtain ⟨l', h3, h4⟩ := ihx (fun y hy => ih y (List.mem_cons_of_mem _ hy)) (s ++ l) a
        refine ⟨l ++ l', ?_, ?_⟩
        · simp only [visitAll, h1, Res.ok_bind, h3, List.append_assoc]
        · simp [reachedAll, h2, h4]
    simp only [visit, recorder, Res.ok_bind]
    by_cases hk : keep (.node ad op line kids)
    · obtain ⟨l, h1, h2⟩ := hall (s ++ [(.node ad op line kids, a)]) (pass a (.node ad op line kids))
      refine ⟨(.node ad op line kids, a) :: l, ?_, ?_⟩
      · simp only [hk, if_true]
        rw [h1]; simp
      · simp [reached, hk, h2]
    · refine ⟨[(.node ad op line kids, a)], ?_, ?_⟩
      · simp [hk]
      · simp [reached, hk]

theorem reached_all (v : Val) : reached (fun _ => true) v = nodes v := by
  refine Val.ind (P := fun v => reached (fun _ => true) v = nodes v) ?_ ?_ ?_ ?_ ?_ v
  · rfl
  · intro _; rfl
  · intro _; rfl
  · intro _; rfl
  · intro a op line kids ih
    have : reachedAll (fun _ => true) kids = nodesAll kids := by
      induction kids with
      | nil => rfl
      | cons x xs ihx =>
        simp only [reachedAll, nodesAll, ih x List.mem_cons_self,
          ihx (fun y hy => ih y (List.mem_cons_of_mem _ hy))]
    simp [reached, nodes, this]

end Aps.Ast

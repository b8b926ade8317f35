import Verif.Spec.Rule
import Verif.Proofs.AstCopy
import Mathlib.Tactic.Common
/-! # Proofs about parents and rules -/
namespace Aps.Rule
open Aps.Ast

theorem nodesAll_mem {x : Val} : ∀ {l : List Val}, x ∈ nodesAll l ↔ ∃ y ∈ l, x ∈ nodes y
  | [] => by simp [nodesAll]
  | y :: l => by simp [nodesAll, nodesAll_mem (l := l)]

theorem self_mem {v : Val} (h : IsNode v) : v ∈ nodes v := by
  cases v <;> simp_all [IsNode, nodes]

theorem kid_mem {t u w : Val} (hu : u ∈ nodes t) (hw : w ∈ kidsOf u) (hn : IsNode w) : w ∈ nodes t := by
  revert hu
  refine Val.ind (P := fun t => u ∈ nodes t → w ∈ nodes t) ?_ ?_ ?_ ?_ ?_ t
  · simp [nodes]
  · simp [nodes]
  · simp [nodes]
  · simp [nodes]
  · intro a op line kids ih hu
    rw [nodes] at hu ⊢
    rcases List.mem_cons.1 hu with rfl | hu
    · exact List.mem_cons_of_mem _ (nodesAll_mem.2 ⟨w, hw, self_mem hn⟩)
    · obtain ⟨y, hy, hu⟩ := nodesAll_mem.1 hu
      exact List.mem_cons_of_mem _ (nodesAll_mem.2 ⟨y, hy, ih y hy hu⟩)

theorem addr_mem {v : Val} {a : Nat} (h : addrOf v = some a) : some a ∈ (nodes v).map addrOf := by
  cases v <;> simp_all [addrOf, nodes]

/-- What a visit does to the parents. -/
structure Did (s s' : Parents) (p v : Val) : Prop where
  root : ∀ a, addrOf v = some a → s' a = some p
  below : ∀ u ∈ nodes v, ∀ w ∈ kidsOf u, ∀ a, addrOf w = some a → s' a = some u
  frame : ∀ a, some a ∉ (nodes v).map addrOf → s' a = s a

structure DidAll (s s' : Parents) (p : Val) (vs : List Val) : Prop where
  root : ∀ v ∈ vs, ∀ a, addrOf v = some a → s' a = some p
  below : ∀ u ∈ nodesAll vs, ∀ w ∈ kidsOf u, ∀ a, addrOf w = some a → s' a = some u
  frame : ∀ a, some a ∉ (nodesAll vs).map addrOf → s' a = s a

theorem kid_addr {u w v : Val} {a : Nat} (hu : u ∈ nodes v) (hw : w ∈ kidsOf u) (ha : addrOf w = some a) :
    some a ∈ (nodes v).map addrOf :=
  List.mem_map.2 ⟨w, kid_mem hu hw (by cases w <;> simp_all [addrOf, IsNode]), ha⟩

theorem visit_did (v : Val) : ((nodes v).map addrOf).Nodup → ∀ s p, ∃ s', visit setParent s p v = .ok s' ∧ Did s s' p v := by
  have leaf : ∀ v : Val, (∀ s p, visit setParent s p v = .ok s) → nodes v = [] → addrOf v = none →
      ((nodes v).map addrOf).Nodup → ∀ s p, ∃ s', visit setParent s p v = .ok s' ∧ Did s s' p v := by
    intro v h1 h2 h3 _ s p
    exact ⟨s, h1 s p, by simp [h3], by simp [h2], fun _ _ => rfl⟩
  refine Val.ind (P := fun v => ((nodes v).map addrOf).Nodup → ∀ s p, ∃ s', visit setParent s p v = .ok s' ∧ Did s s' p v)
    (leaf _ (fun _ _ => rfl) rfl rfl) (fun _ => leaf _ (fun _ _ => rfl) rfl rfl) (fun _ => leaf _ (fun _ _ => rfl) rfl rfl)
    (fun _ => leaf _ (fun _ _ => rfl) rfl rfl) ?_ v
  intro ad op line kids ih hn s p
  have hall : ∀ ks : List Val, (∀ x ∈ ks, x ∈ kids) → ((nodesAll ks).map addrOf).Nodup → ∀ s q,
      ∃ s', visitAll setParent s q ks = .ok s' ∧ DidAll s s' q ks := by
    intro ks
    induction ks with
    | nil => intro _ _ s q; exact ⟨s, rfl, by simp, by simp [nodesAll], fun _ _ => rfl⟩
    | cons x xs ihx =>
      intro hks hn s q
      simp only [nodesAll, List.map_append] at hn
      obtain ⟨hn1, hn2, hn3⟩ := List.nodup_append'.1 hn
      obtain ⟨s1, h1, d1⟩ := ih x (hks x List.mem_cons_self) hn1 s q
      obtain ⟨s2, h2, d2⟩ := ihx (fun y hy => hks y (List.mem_cons_of_mem _ hy)) hn2 s1 q
      have keep : ∀ a, some a ∈ (nodes x).map addrOf → s2 a = s1 a :=
        fun a ha => d2.frame a fun hb => hn3 ha hb
      refine ⟨s2, by simp only [visitAll, h1, Res.ok_bind, h2], ?_, ?_, ?_⟩
      · intro v hv a ha
        rcases List.mem_cons.1 hv with rfl | hv
        · rw [keep a (addr_mem ha), d1.root a ha]
        · exact d2.root v hv a ha
      · intro u hu w hw a ha
        simp only [nodesAll] at hu
        rcases List.mem_append.1 hu with hu | hu
        · rw [keep a (kid_addr hu hw ha), d1.below u hu w hw a ha]
        · exact d2.below u hu w hw a ha
      · intro a ha
        simp only [nodesAll, List.map_append, List.mem_append, not_or] at ha
        rw [d2.frame a ha.2, d1.frame a ha.1]
  simp only [nodes, List.map_cons, List.nodup_cons, addrOf] at hn
  obtain ⟨s2, h2, d2⟩ := hall kids (fun _ h => h) hn.2 (fun b => if b = ad then some p else s b)
    (.node ad op line kids)
  refine ⟨s2, by simp only [visit, setParent, Res.ok_bind, h2], ?_, ?_, ?_⟩
  · intro a ha
    simp only [addrOf, Option.some.injEq] at ha
    subst ha
    rw [d2.frame ad hn.1]; simp
  · intro u hu w hw a ha
    simp only [nodes] at hu
    rcases List.mem_cons.1 hu with rfl | hu
    · exact d2.root w hw a ha
    · exact d2.below u hu w hw a ha
  · intro a ha
    simp only [nodes, List.map_cons, addrOf, List.mem_cons, not_or, Option.some.injEq] at ha
    rw [d2.frame a ha.2]; simp [ha.1]

theorem setTnodeParent_ok {t : Val} (hc : Conforms (.ph .Program) t) (hn : ((nodes t).map addrOf).Nodup) :
    ∃ N, ∀ fuel, N ≤ fuel → ∀ s, ∃ s', setTnodeParent fuel s t = .ok s' ∧ ParentOk s' t ∧
      ∀ a, some a ∉ (nodes t).map addrOf → s' a = s a := by
  obtain ⟨N, hN⟩ := walks setParent t _ hc _ rfl
  refine ⟨N, fun fuel hf s => ?_⟩
  obtain ⟨s1, h1, d⟩ := visit_did t hn s t
  obtain ⟨c, ad, line, kids, rfl, -, -⟩ := conforms_ph hc
  simp only [setTnodeParent, hN fuel hf, h1, Res.bind]
  refine ⟨_, rfl, ⟨?_, ?_⟩, ?_⟩
  · intro a ha; simp only [addrOf, Option.some.injEq] at ha; simp [ha]
  · intro u hu w hw a ha
    have hw' : some a ∈ (nodesAll kids).map addrOf := by
      have hwn : IsNode w := by cases w <;> simp_all [addrOf, IsNode]
      rw [nodes] at hu
      rcases List.mem_cons.1 hu with rfl | hu
      · exact List.mem_map.2 ⟨w, nodesAll_mem.2 ⟨w, hw, self_mem hwn⟩, ha⟩
      · obtain ⟨y, hy, hu⟩ := nodesAll_mem.1 hu
        exact List.mem_map.2 ⟨w, nodesAll_mem.2 ⟨y, hy, kid_mem hu hw hwn⟩, ha⟩
    have hne : a ≠ ad := by
      rintro rfl
      simp only [nodes, List.map_cons, addrOf, List.nodup_cons] at hn
      exact hn.1 hw'
    simp only [hne, if_false]
    exact d.below u hu w hw a ha
  · intro a ha
    have : a ≠ ad := by rintro rfl; exact ha (addr_mem rfl)
    simp only [this, if_false]
    exact d.frame a ha


/-! ## Keys and accessors on nodes of known constructor -/

theorem key_of {c : Con} {p : Phylum} {kids : List Val} {v : Val} (h : Node c kids v) (hp : c.phylum = p) :
    key p v = .ok c := by
  obtain ⟨a, line, rfl⟩ := h
  rw [key_node, if_pos hp]

theorem get_of {c : Con} {i : Nat} {ka : Kind × Acc} (hf : c.fields[i]? = some ka) {kids : List Val} {v x : Val}
    (h : Node c kids v) (hx : kids[i]? = some x) : get ka.2 v = .ok x := by
  obtain ⟨a, line, rfl⟩ := h
  rw [get_at hf, if_pos rfl, hx]

theorem node_of_key {p : Phylum} {v : Val} {c : Con} (hc : Conforms (.ph p) v) (hk : key p v = .ok c) :
    ∃ kids, Node c kids v ∧ List.Forall₂ (fun ka x => Conforms ka.1 x) c.fields kids := by
  obtain ⟨d, a, line, kids, rfl, hp, hf⟩ := conforms_ph hc
  rw [key_node, if_pos hp] at hk
  cases hk
  exact ⟨kids, ⟨a, line, rfl⟩, hf⟩

theorem has_key {p : Phylum} {v : Val} (hc : Conforms (.ph p) v) : ∃ c kids, c.phylum = p ∧ key p v = .ok c ∧ Node c kids v ∧
    List.Forall₂ (fun ka x => Conforms ka.1 x) c.fields kids := by
  obtain ⟨d, a, line, kids, rfl, hp, hf⟩ := conforms_ph hc
  exact ⟨d, kids, hp, by rw [key_node, if_pos hp], ⟨a, line, rfl⟩, hf⟩

theorem two {k1 k2 : Kind × Acc} {kids : List Val} (h : List.Forall₂ (fun ka x => Conforms ka.1 x) [k1, k2] kids) :
    ∃ x y, kids = [x, y] ∧ Conforms k1.1 x ∧ Conforms k2.1 y := by
  obtain ⟨x, l, h1, h2, rfl⟩ := List.forall₂_cons_left_iff.1 h
  obtain ⟨y, l, h3, h4, rfl⟩ := List.forall₂_cons_left_iff.1 h2
  cases h4
  exact ⟨x, y, rfl, h1, h3⟩

theorem one {k1 : Kind × Acc} {kids : List Val} (h : List.Forall₂ (fun ka x => Conforms ka.1 x) [k1] kids) :
    ∃ x, kids = [x] ∧ Conforms k1.1 x := by
  obtain ⟨x, l, h1, h2, rfl⟩ := List.forall₂_cons_left_iff.1 h
  cases h2
  exact ⟨x, rfl, h1⟩

theorem Node.isNode {c kids v} (h : Node c kids v) : IsNode v := by obtain ⟨_, _, rfl⟩ := h; trivial

theorem Node.kids {c kids v} (h : Node c kids v) : kidsOf v = kids := by obtain ⟨_, _, rfl⟩ := h; rfl

theorem conforms_isNode {p : Phylum} {v : Val} (h : Conforms (.ph p) v) : IsNode v := by
  obtain ⟨_, _, _, _, rfl, _⟩ := conforms_ph h; trivial

/-! ## Sequences -/

theorem first_seq {v : Val} {xs : List Val} (h : SeqOf v xs) : ∃ N, ∀ fuel, N ≤ fuel → firstPatternActual fuel v = .ok xs.head? := by
  induction h with
  | nil h =>
    refine ⟨1, fun fuel hf => ?_⟩
    obtain ⟨m, rfl⟩ : ∃ m, fuel = m + 1 := ⟨fuel - 1, by omega⟩
    simp [firstPatternActual, key_of h (p := .PatternActuals) rfl]
  | @list v x h =>
    refine ⟨1, fun fuel hf => ?_⟩
    obtain ⟨m, rfl⟩ : ∃ m, fuel = m + 1 := ⟨fuel - 1, by omega⟩
    have := get_of (c := .list_PatternActuals) (i := 0) (ka := (.ph .Pattern, .list_PatternActuals_elem)) rfl h (x := x) rfl
    simp only at this
    simp [firstPatternActual, key_of h (p := .PatternActuals) rfl, this]
  | @append v l1 l2 xs ys h _ _ ih1 ih2 =>
    obtain ⟨N1, h1⟩ := ih1
    obtain ⟨N2, h2⟩ := ih2
    refine ⟨max N1 N2 + 1, fun fuel hf => ?_⟩
    obtain ⟨m, rfl⟩ : ∃ m, fuel = m + 1 := ⟨fuel - 1, by omega⟩
    have g1 := get_of (c := .append_PatternActuals) (i := 0) (ka := (.ph .PatternActuals, .append_PatternActuals_l1)) rfl h (x := l1) rfl
    have g2 := get_of (c := .append_PatternActuals) (i := 1) (ka := (.ph .PatternActuals, .append_PatternActuals_l2)) rfl h (x := l2) rfl
    simp only at g1 g2
    simp only [firstPatternActual, key_of h (p := .PatternActuals) rfl, Res.ok_bind, g1, h1 m (by omega), g2, h2 m (by omega)]
    cases xs <;> simp

/-- A sequence that follows the grammar has elements, all of which are patterns. -/
theorem seq_exists {v : Val} : Conforms (.ph .PatternActuals) v → ∃ xs, SeqOf v xs ∧ ∀ x ∈ xs, Conforms (.ph .Pattern) x := by
  refine Val.ind (P := fun v => Conforms (.ph .PatternActuals) v → ∃ xs, SeqOf v xs ∧ ∀ x ∈ xs, Conforms (.ph .Pattern) x)
    (by simp [Conforms]) (by simp [Conforms]) (by simp [Conforms]) (by simp [Conforms]) ?_ v
  intro a op line kids ih hc
  obtain ⟨c, hp, rfl, hf⟩ := conforms_node.1 hc
  have hcases : c = .nil_PatternActuals ∨ c = .list_PatternActuals ∨ c = .append_PatternActuals := by
    revert hp; clear ih hc hf; cases c <;> simp [Con.phylum]
  rcases hcases with rfl | rfl | rfl
  · cases hf
    exact ⟨[], .nil ⟨a, line, rfl⟩, by simp⟩
  · obtain ⟨x, rfl, h1⟩ := one hf
    exact ⟨[x], .list ⟨a, line, rfl⟩, by simpa using h1⟩
  · obtain ⟨x, y, rfl, h1, h2⟩ := two hf
    obtain ⟨xs, g1, q1⟩ := ih x (by simp) h1
    obtain ⟨ys, g2, q2⟩ := ih y (by simp) h2
    refine ⟨xs ++ ys, .append ⟨a, line, rfl⟩ g1 g2, ?_⟩
    intro z hz
    rcases List.mem_append.1 hz with hz | hz
    · exact q1 z hz
    · exact q2 z hz

theorem seq_mem {t v : Val} {xs : List Val} (h : SeqOf v xs) (hv : v ∈ nodes t) : ∀ x ∈ xs, IsNode x → x ∈ nodes t := by
  induction h with
  | nil _ => simp
  | @list v x h =>
    intro y hy hn
    simp at hy; subst hy
    exact kid_mem hv (by rw [h.kids]; simp) hn
  | @append v l1 l2 xs ys h s1 s2 ih1 ih2 =>
    have sn : ∀ {v xs}, SeqOf v xs → IsNode v := by
      intro v xs h; cases h <;> exact Node.isNode (by assumption)
    intro x hx hn
    rcases List.mem_append.1 hx with hx | hx
    · exact ih1 (kid_mem hv (by rw [h.kids]; simp) (sn s1)) x hx hn
    · exact ih2 (kid_mem hv (by rw [h.kids]; simp) (sn s2)) x hx hn

theorem first_det {v : Val} {xs : List Val} (h : SeqOf v xs) : ∀ fuel r, firstPatternActual fuel v = .ok r → r = xs.head? := by
  induction h with
  | nil h =>
    intro fuel r hr
    cases fuel with
    | zero => simp [firstPatternActual] at hr
    | succ m =>
      simp [firstPatternActual, key_of h (p := .PatternActuals) rfl] at hr
      simp [← hr]
  | @list v x h =>
    intro fuel r hr
    have := get_of (c := .list_PatternActuals) (i := 0) (ka := (.ph .Pattern, .list_PatternActuals_elem)) rfl h (x := x) rfl
    simp only at this
    cases fuel with
    | zero => simp [firstPatternActual] at hr
    | succ m =>
      simp [firstPatternActual, key_of h (p := .PatternActuals) rfl, this] at hr
      simp [← hr]
  | @append v l1 l2 xs ys h _ _ ih1 ih2 =>
    intro fuel r hr
    have g1 := get_of (c := .append_PatternActuals) (i := 0) (ka := (.ph .PatternActuals, .append_PatternActuals_l1)) rfl h (x := l1) rfl
    have g2 := get_of (c := .append_PatternActuals) (i := 1) (ka := (.ph .PatternActuals, .append_PatternActuals_l2)) rfl h (x := l2) rfl
    simp only at g1 g2
    cases fuel with
    | zero => simp [firstPatternActual] at hr
    | succ m =>
      simp only [firstPatternActual, key_of h (p := .PatternActuals) rfl, Res.ok_bind, g1, g2] at hr
      simp only [reduceCtorEq, if_false, if_true] at hr
      obtain ⟨f, hf, hr⟩ := Res.bind_eq_ok.1 hr
      have := ih1 m f hf
      subst this
      cases xs with
      | nil => simp only [List.head?_nil] at hr; simpa using ih2 m r hr
      | cons x xs => simp only [List.head?_cons] at hr; cases hr; simp

/-! ## The loop over the right-hand side -/

theorem varFormal_var {v d : Val} (h : Node .pattern_var [d] v) : varFormal (some v) = .ok (some d) := by
  have g := get_of (c := .pattern_var) (i := 0) (ka := (.ph .Declaration, .pattern_var_formal)) rfl h (x := d) rfl
  simp only at g
  simp [varFormal, key_of h (p := .Pattern) rfl, g]

theorem varFormal_ok {v : Val} (hc : Conforms (.ph .Pattern) v) {r : Option Val} (h : varFormal (some v) = .ok r) :
    ∃ d, r = some d ∧ Node .pattern_var [d] v ∧ Conforms (.ph .Declaration) d := by
  obtain ⟨c, kids, hp, hk, hn, hf⟩ := has_key hc
  simp only [varFormal, hk, Res.ok_bind] at h
  split at h
  · rename_i hcv
    subst hcv
    obtain ⟨d, rfl, hd⟩ := one hf
    have g := get_of (c := .pattern_var) (i := 0) (ka := (.ph .Declaration, .pattern_var_formal)) rfl hn (x := d) rfl
    simp only at g
    simp only [g, Res.ok_bind] at h
    cases h
    exact ⟨d, rfl, hn, hd⟩
  · cases h

theorem field_parent {I : Info} {t v d : Val} (hp : ParentOk I.parent t) (hv : v ∈ nodes t) (h : Node .pattern_var [d] v)
    (hd : IsNode d) : field I.parent d = .ok (some v) := by
  cases d with
  | node a op line kids =>
    simp only [field]
    rw [hp.2 v hv _ (by rw [h.kids]; exact List.mem_singleton.2 rfl) a rfl]
  | _ => exact hd.elim

/-- The loop, started with the formal of the first of the variables. -/
theorem loop_vars {I : Info} {t : Val} (hp : ParentOk I.parent t) : ∀ (vars ds : List Val),
    List.Forall₂ (fun v d => Node .pattern_var [d] v) vars ds → (∀ d ∈ ds, IsNode d) → (∀ v ∈ vars, v ∈ nodes t) →
    Linked I.nextPat vars → ∀ fuel, ds.length < fuel → rhsLoop I fuel ds.head? = .ok ds := by
  intro vars ds h
  induction h with
  | nil => intro _ _ _ fuel hf; obtain ⟨m, rfl⟩ : ∃ m, fuel = m + 1 := ⟨fuel - 1, by omega⟩; rfl
  | @cons v d vs ds h hs ih =>
    intro hd hv hl fuel hf
    obtain ⟨m, rfl⟩ : ∃ m, fuel = m + 1 := ⟨fuel - 1, by omega⟩
    have hpar := field_parent hp (hv v (by simp)) h (hd d (by simp))
    have hrest := ih (fun x hx => hd x (by simp [hx])) (fun x hx => hv x (by simp [hx]))
    have hnext : nextRhsDecl I d = .ok ds.head? ∧ Linked I.nextPat vs := by
      cases hs with
      | nil =>
        simp only [Linked] at hl
        exact ⟨by simp [nextRhsDecl, hpar, hl, varFormal], trivial⟩
      | @cons v' d' vs' ds' h' hs' =>
        simp only [Linked] at hl
        exact ⟨by simp [nextRhsDecl, hpar, hl.1, varFormal_var h'], hl.2⟩
    simp only [List.head?_cons, rhsLoop, hnext.1, Res.ok_bind, hrest hnext.2 m (by simp at hf; omega)]

/-- If the loop ends well, it has gone through variables only. -/
theorem loop_only {I : Info} {t : Val} (hp : ParentOk I.parent t) : ∀ (vars : List Val),
    (∀ v ∈ vars, Conforms (.ph .Pattern) v ∧ v ∈ nodes t) → Linked I.nextPat vars → ∀ fuel ds r,
    varFormal vars.head? = .ok r → rhsLoop I fuel r = .ok ds →
    List.Forall₂ (fun v d => Node .pattern_var [d] v) vars ds := by
  intro vars
  induction vars with
  | nil =>
    intro _ _ fuel ds r hr h
    simp only [List.head?_nil, varFormal] at hr
    cases hr
    cases fuel with
    | zero => simp [rhsLoop] at h
    | succ m => simp only [rhsLoop] at h; cases h; exact .nil
  | cons v vs ih =>
    intro hv hl fuel ds r hr h
    obtain ⟨d, rfl, hn, hd⟩ := varFormal_ok (hv v (by simp)).1 (by simpa using hr)
    cases fuel with
    | zero => simp [rhsLoop] at h
    | succ m =>
      have hpar := field_parent hp (hv v (by simp)).2 hn (conforms_isNode hd)
      simp only [rhsLoop] at h
      obtain ⟨n, h1, h⟩ := Res.bind_eq_ok.1 h
      obtain ⟨ds', h2, h⟩ := Res.bind_eq_ok.1 h
      cases h
      have hnext : varFormal vs.head? = .ok n ∧ Linked I.nextPat vs := by
        cases vs with
        | nil =>
          simp only [Linked] at hl
          simp only [nextRhsDecl, hpar, Res.ok_bind, hl] at h1
          exact ⟨h1, trivial⟩
        | cons v' vs' =>
          simp only [Linked] at hl
          simp only [nextRhsDecl, hpar, Res.ok_bind, hl.1] at h1
          exact ⟨h1, hl.2⟩
      exact .cons hn (ih (fun x hx => hv x (by simp [hx])) hnext.2 m ds' n hnext.1 h2)

/-! ## Rules -/

theorem mainPattern_call {m pat body : Val} {kids : List Val} (hm : Node .matcher [pat, body] m)
    (hp : Node .pattern_call kids pat) : mainPattern m = .ok pat := by
  have g := get_of (c := .matcher) (i := 0) (ka := (.ph .Pattern, .matcher_pat)) rfl hm (x := pat) rfl
  simp only at g
  simp [mainPattern, g, key_of hp (p := .Pattern) rfl]

theorem mainPattern_and {m pat body p1 p2 : Val} (hm : Node .matcher [pat, body] m)
    (hp : Node .and_pattern [p1, p2] pat) : mainPattern m = .ok p2 := by
  have g := get_of (c := .matcher) (i := 0) (ka := (.ph .Pattern, .matcher_pat)) rfl hm (x := pat) rfl
  have g2 := get_of (c := .and_pattern) (i := 1) (ka := (.ph .Pattern, .and_pattern_p2)) rfl hp (x := p2) rfl
  simp only at g g2
  simp [mainPattern, g, g2, key_of hp (p := .Pattern) rfl]

theorem mainPattern_other {m pat body : Val} {c : Con} {kids : List Val} (hm : Node .matcher [pat, body] m)
    (hp : Node c kids pat) (hph : c.phylum = .Pattern) (h1 : c ≠ .pattern_call) (h2 : c ≠ .and_pattern) :
    mainPattern m = .stop := by
  have g := get_of (c := .matcher) (i := 0) (ka := (.ph .Pattern, .matcher_pat)) rfl hm (x := pat) rfl
  simp only at g
  simp [mainPattern, g, key_of hp hph, h1, h2]

/-- The pattern of a match, and the call in it, if there is no error. -/
theorem main_ok {m p : Val} (hc : Conforms (.ph .Match) m) (h : mainPattern m = .ok p) :
    ∃ pat body, Node .matcher [pat, body] m ∧ Conforms (.ph .Pattern) pat ∧ Conforms (.ph .Pattern) p ∧
      ((p = pat ∧ ∃ kids, Node .pattern_call kids pat) ∨ ∃ p1, Node .and_pattern [p1, p] pat ∧ Conforms (.ph .Pattern) p1) := by
  obtain ⟨c, kids, hp, hk, hn, hf⟩ := has_key hc
  have hcm : c = .matcher := by revert hp; clear hk hn hf; cases c <;> simp [Con.phylum]
  subst hcm
  obtain ⟨pat, body, rfl, hpat, -⟩ := two hf
  refine ⟨pat, body, hn, hpat, ?_⟩
  obtain ⟨c, kids, hp', hk', hn', hf'⟩ := has_key hpat
  by_cases h1 : c = .pattern_call
  · subst h1
    rw [mainPattern_call hn hn'] at h
    cases h
    exact ⟨hpat, .inl ⟨rfl, kids, hn'⟩⟩
  by_cases h2 : c = .and_pattern
  · subst h2
    obtain ⟨p1, p2, rfl, q1, q2⟩ := two hf'
    rw [mainPattern_and hn hn'] at h
    cases h
    exact ⟨q2, .inr ⟨p1, hn', q1⟩⟩
  · rw [mainPattern_other hn hn' hp' h1 h2] at h; cases h

theorem Node.inj {c d : Con} {k l : List Val} {v : Val} (h1 : Node c k v) (h2 : Node d l v) : c = d ∧ k = l := by
  obtain ⟨a, line, rfl⟩ := h1
  obtain ⟨b, line', h⟩ := h2
  injection h with e1 e2 e3 e4
  exact ⟨op_inj e2, e4⟩

theorem seq_kinds {v : Val} {xs : List Val} (h : SeqOf v xs) : ∀ {ys}, SeqOf v ys → xs = ys := by
  induction h with
  | nil h => intro ys h2; cases h2 with
    | nil _ => rfl
    | list h' => exact absurd (h.inj h').1 (by decide)
    | append h' _ _ => exact absurd (h.inj h').1 (by decide)
  | list h => intro ys h2; cases h2 with
    | nil h' => exact absurd (h.inj h').1 (by decide)
    | list h' => have := (h.inj h').2; simpa using this
    | append h' _ _ => exact absurd (h.inj h').1 (by decide)
  | append h _ _ ih1 ih2 => intro ys h2; cases h2 with
    | nil h' => exact absurd (h.inj h').1 (by decide)
    | list h' => exact absurd (h.inj h').1 (by decide)
    | append h' a b =>
      have e := (h.inj h').2
      simp only [List.cons.injEq, and_true] at e
      obtain ⟨rfl, rfl⟩ := e
      rw [ih1 a, ih2 b]

theorem conforms_kid {p : Phylum} {c : Con} {kids : List Val} {v : Val} (hc : Conforms (.ph p) v) (hn : Node c kids v) :
    List.Forall₂ (fun ka x => Conforms ka.1 x) c.fields kids := by
  obtain ⟨d, k, _, _, hn', hf⟩ := has_key hc
  obtain ⟨rfl, rfl⟩ := hn.inj hn'
  exact hf

theorem rule_parts {I : Info} {t m : Val} (hI : Prepared I t) (hm : m ∈ nodes t) (hc : Conforms (.ph .Match) m)
    {lhs : Option Val} {u : Val} {ds : List Val} (h : IsRule m lhs u ds) :
    matchLhsDecl m = .ok lhs ∧ matchConstructorUse m = .ok u ∧
      ∃ N, ∀ fuel, N ≤ fuel → rhsDecls I fuel m = .ok ds := by
  obtain ⟨pat, body, call, f, seq, vars, h1, h2, h3, h4, h5, h6⟩ := h
  have g := get_of (c := .matcher) (i := 0) (ka := (.ph .Pattern, .matcher_pat)) rfl h1 (x := pat) rfl
  have gf := get_of (c := .pattern_call) (i := 0) (ka := (.ph .Pattern, .pattern_call_func)) rfl h2 (x := f) rfl
  have gs := get_of (c := .pattern_call) (i := 1) (ka := (.ph .PatternActuals, .pattern_call_actuals)) rfl h2 (x := seq) rfl
  have gu := get_of (c := .pattern_use) (i := 0) (ka := (.ph .Use, .pattern_use_use)) rfl h3 (x := u) rfl
  simp only at g gf gs gu
  obtain ⟨x, y, e, cpat, -⟩ := two (conforms_kid hc h1)
  simp only [List.cons.injEq, and_true] at e; obtain ⟨rfl, rfl⟩ := e
  have hpat : pat ∈ nodes t := kid_mem hm (by rw [h1.kids]; simp) (conforms_isNode cpat)
  have key1 : mainPattern m = .ok call ∧ call ∈ nodes t ∧ Conforms (.ph .Pattern) call ∧ matchLhsDecl m = .ok lhs := by
    rcases h6 with ⟨rfl, rfl⟩ | ⟨l, p1, rfl, h7, h8⟩
    · exact ⟨mainPattern_call h1 h2, hpat, cpat, by simp [matchLhsDecl, g, key_of h2 (p := .Pattern) rfl]⟩
    · obtain ⟨x, y, e, c1, c2⟩ := two (conforms_kid cpat h8)
      simp only [List.cons.injEq, and_true] at e; obtain ⟨rfl, rfl⟩ := e
      have g1 := get_of (c := .and_pattern) (i := 0) (ka := (.ph .Pattern, .and_pattern_p1)) rfl h8 (x := p1) rfl
      have gl := get_of (c := .pattern_var) (i := 0) (ka := (.ph .Declaration, .pattern_var_formal)) rfl h7 (x := l) rfl
      simp only at g1 gl
      exact ⟨mainPattern_and h1 h8, kid_mem hpat (by rw [h8.kids]; simp) (conforms_isNode c2), c2,
        by simp [matchLhsDecl, g, g1, gl, key_of h8 (p := .Pattern) rfl, key_of h7 (p := .Pattern) rfl]⟩
  obtain ⟨k1, k2, k3, k4⟩ := key1
  refine ⟨k4, by simp [matchConstructorUse, k1, gf, gu, key_of h2 (p := .Pattern) rfl, key_of h3 (p := .Pattern) rfl], ?_⟩
  obtain ⟨x, y, e, -, cseq⟩ := two (conforms_kid k3 h2)
  simp only [List.cons.injEq, and_true] at e; obtain ⟨rfl, rfl⟩ := e
  have hseq : seq ∈ nodes t := kid_mem k2 (by rw [h2.kids]; simp) (conforms_isNode cseq)
  obtain ⟨vars', hv', cv⟩ := seq_exists cseq
  have e := seq_kinds h4 hv'; subst e
  have hds : ∀ d ∈ ds, IsNode d := by
    intro d hd
    obtain ⟨i, hi, rfl⟩ := List.mem_iff_getElem.1 hd
    have hl := h5.length_eq
    have hn := (List.forall₂_iff_get.1 h5).2 i (by omega) hi
    obtain ⟨x, e, cx⟩ := one (conforms_kid (cv _ (List.getElem_mem (h := by omega))) hn)
    simp only [List.cons.injEq, and_true] at e
    rw [List.get_eq_getElem] at e
    rw [e]; exact conforms_isNode cx
  obtain ⟨N, hN⟩ := first_seq h4
  have hloop := loop_vars hI.parents vars ds h5 hds
    (fun v hv => seq_mem h4 hseq v hv (conforms_isNode (cv v hv))) (hI.links call k2 f seq vars h2 h4)
  refine ⟨max N (ds.length + 1), fun fuel hf => ?_⟩
  have hfirst : matchFirstRhsDecl fuel m = .ok ds.head? := by
    simp only [matchFirstRhsDecl, k1, Res.ok_bind, key_of h2 (p := .Pattern) rfl, gs, hN fuel (by omega), if_true]
    cases h5 with
    | nil => rfl
    | cons h _ => simp [varFormal_var h]
  simp only [rhsDecls, hfirst, Res.ok_bind]
  exact hloop fuel (by omega)

theorem rule_only {I : Info} {t m : Val} (hI : Prepared I t) (hm : m ∈ nodes t) (hc : Conforms (.ph .Match) m)
    {lhs : Option Val} {u : Val} {ds : List Val} {fuel : Nat} (h1 : matchLhsDecl m = .ok lhs)
    (h2 : matchConstructorUse m = .ok u) (h3 : rhsDecls I fuel m = .ok ds) : IsRule m lhs u ds := by
  simp only [matchConstructorUse] at h2
  obtain ⟨call, hmain, h2⟩ := Res.bind_eq_ok.1 h2
  obtain ⟨pat, body, hnm, cpat, ccall, hpat⟩ := main_ok hc hmain
  have hpm : pat ∈ nodes t := kid_mem hm (by rw [hnm.kids]; simp) (conforms_isNode cpat)
  have hcm : call ∈ nodes t := by
    rcases hpat with ⟨rfl, _⟩ | ⟨p1, h, _⟩
    · exact hpm
    · exact kid_mem hpm (by rw [h.kids]; simp) (conforms_isNode ccall)
  obtain ⟨k, hk, h2⟩ := Res.bind_eq_ok.1 h2
  by_cases hk1 : k = .pattern_call
  swap
  · rw [if_neg hk1] at h2; cases h2
  rw [if_pos hk1] at h2
  subst hk1
  obtain ⟨kids, hncall, hf⟩ := node_of_key ccall hk
  obtain ⟨f, seq, rfl, cf, cseq⟩ := two hf
  have gf := get_of (c := .pattern_call) (i := 0) (ka := (.ph .Pattern, .pattern_call_func)) rfl hncall (x := f) rfl
  have gs := get_of (c := .pattern_call) (i := 1) (ka := (.ph .PatternActuals, .pattern_call_actuals)) rfl hncall (x := seq) rfl
  simp only at gf gs
  simp only [gf, Res.ok_bind] at h2
  obtain ⟨kf, hkf, h2⟩ := Res.bind_eq_ok.1 h2
  by_cases hkf1 : kf = .pattern_use
  swap
  · rw [if_neg hkf1] at h2; cases h2
  rw [if_pos hkf1] at h2
  subst hkf1
  obtain ⟨kids, hnf, hff⟩ := node_of_key cf hkf
  obtain ⟨u', rfl, -⟩ := one hff
  have gu := get_of (c := .pattern_use) (i := 0) (ka := (.ph .Use, .pattern_use_use)) rfl hnf (x := u') rfl
  simp only at gu
  rw [gu] at h2; cases h2
  obtain ⟨vars, hv, cv⟩ := seq_exists cseq
  have hseq : seq ∈ nodes t := kid_mem hcm (by rw [hncall.kids]; simp) (conforms_isNode cseq)
  simp only [rhsDecls, matchFirstRhsDecl, hmain, Res.ok_bind, hk, gs, if_true] at h3
  obtain ⟨r, h3, h4⟩ := Res.bind_eq_ok.1 h3
  obtain ⟨fst, h5, h3⟩ := Res.bind_eq_ok.1 h3
  have := first_det hv _ _ h5
  subst this
  have hvars := loop_only hI.parents vars (fun v hv' => ⟨cv v hv', seq_mem hv hseq v hv' (conforms_isNode (cv v hv'))⟩)
    (hI.links call hcm f seq vars hncall hv) fuel ds r h3 h4
  refine ⟨pat, body, call, f, seq, vars, hnm, hncall, hnf, hv, hvars, ?_⟩
  have g := get_of (c := .matcher) (i := 0) (ka := (.ph .Pattern, .matcher_pat)) rfl hnm (x := pat) rfl
  simp only at g
  rcases hpat with ⟨rfl, kids, _⟩ | ⟨p1, h, cp1⟩
  · left
    simp [matchLhsDecl, g, key_of hncall (p := .Pattern) rfl] at h1
    exact ⟨h1.symm, rfl⟩
  · right
    have g1 := get_of (c := .and_pattern) (i := 0) (ka := (.ph .Pattern, .and_pattern_p1)) rfl h (x := p1) rfl
    simp only at g1
    simp only [matchLhsDecl, g, key_of h (p := .Pattern) rfl, Res.ok_bind, g1, reduceCtorEq, if_false, if_true] at h1
    obtain ⟨l, e, hn, -⟩ := varFormal_ok cp1 (by simpa [varFormal] using h1)
    exact ⟨l, p1, e, hn, h⟩

theorem rule_constructor {I : Info} {m u : Val} (h : matchConstructorUse m = .ok u) {a : Nat} (ha : addrOf u = some a)
    (hb : ∀ d, I.useDecl a = some d → Conforms (.ph .Declaration) d) (d : Val) :
    (matchConstructorDecl I m = .ok d ↔ I.useDecl a = some d ∧ ∃ kids, Node .constructor_decl kids d) ∧
    (matchConstructorDecl I m = .stop ∨ ∃ d, matchConstructorDecl I m = .ok d) := by
  have hfield : field I.useDecl u = .ok (I.useDecl a) := by
    cases u <;> simp_all [addrOf, field]
  simp only [matchConstructorDecl, h, Res.ok_bind, hfield]
  cases hd : I.useDecl a with
  | none => simp
  | some d' =>
    obtain ⟨c, kids, hp, hk, hn, hf⟩ := has_key (hb d' hd)
    simp only [hk, Res.ok_bind, Option.some.injEq]
    by_cases hcc : c = .constructor_decl
    · subst hcc
      simp only [if_true]
      refine ⟨⟨fun h => ?_, fun h => by rw [h.1]⟩, .inr ⟨_, rfl⟩⟩
      cases h; exact ⟨rfl, kids, hn⟩
    · simp only [if_neg hcc]
      refine ⟨⟨fun h => (by cases h), ?_⟩, .inl trivial⟩
      rintro ⟨rfl, k, hk⟩
      exact absurd (hn.inj hk).1 hcc

end Aps.Rule

import Verif.Proofs.Dfa
set_option linter.unusedVariables false
namespace Aps.Dfa
open Aps.Dfa.Spec

/-! ### one step -/

theorem stepEdges_mem (f : Lab) : ∀ (es : List (Nat × Option Lab)) (acc : List Nat) (x : Nat),
    x ∈ stepEdges f es acc ↔ x ∈ acc ∨ (x, some f) ∈ es
  | [], acc, x => by simp [stepEdges]
  | (s, l) :: es, acc, x => by
    simp only [stepEdges]
    rw [stepEdges_mem f es, List.mem_cons, Prod.mk.injEq]
    split
    · next h =>
      obtain ⟨rfl, h2⟩ := h
      rw [addNode_mem]; tauto
    · next h =>
      constructor
      · tauto
      · rintro (h' | ⟨rfl, rfl⟩ | h')
        · exact .inl h'
        · left
          by_contra hc
          exact h ⟨rfl, hc⟩
        · exact .inr h'

theorem stepEdges_nodup (f : Lab) : ∀ (es : List (Nat × Option Lab)) (acc : List Nat), acc.Nodup → (stepEdges f es acc).Nodup
  | [], acc, h => h
  | (s, l) :: es, acc, h => by
    simp only [stepEdges]
    refine stepEdges_nodup f es _ ?_
    split
    · next hc => rw [addNode_new hc.2]; exact List.nodup_cons.2 ⟨hc.2, h⟩
    · exact h

theorem stepNodes_mem (g : Graph) (f : Lab) : ∀ (ps acc : List Nat) (x : Nat),
    x ∈ stepNodes g f ps acc ↔ x ∈ acc ∨ ∃ p ∈ ps, (x, some f) ∈ g p
  | [], acc, x => by simp [stepNodes]
  | p :: ps, acc, x => by
    simp only [stepNodes]
    rw [stepNodes_mem g f ps, stepEdges_mem]
    simp only [List.mem_cons, exists_eq_or_imp]
    tauto

theorem stepNodes_nodup (g : Graph) (f : Lab) : ∀ (ps acc : List Nat), acc.Nodup → (stepNodes g f ps acc).Nodup
  | [], acc, h => h
  | p :: ps, acc, h => by
    simp only [stepNodes]
    exact stepNodes_nodup g f ps _ (stepEdges_nodup f _ _ h)

theorem reachable_of : ∀ {ns : List Nat} {q q' : Nat}, q ∈ ns → q' ∈ ns → q ≠ q' → q / 2 = q' / 2 → reachable ns = true
  | [], q, q', h, _, _, _ => nomatch h
  | n :: ns, q, q', h, h', hne, hd => by
    simp only [reachable, Bool.or_eq_true, List.any_eq_true, beq_iff_eq]
    rcases List.mem_cons.1 h with rfl | h1
    · rcases List.mem_cons.1 h' with rfl | h'
      · exact absurd rfl hne
      · exact .inl ⟨q', h', hd.symm⟩
    · rcases List.mem_cons.1 h' with rfl | h'
      · exact .inl ⟨q, h1, hd⟩
      · exact .inr (reachable_of h1 h' hne hd)

theorem of_reachable : ∀ {ns : List Nat}, ns.Nodup → reachable ns = true →
    ∃ q q', q ∈ ns ∧ q' ∈ ns ∧ q ≠ q' ∧ q / 2 = q' / 2
  | [], _, h => nomatch h
  | n :: ns, hn, h => by
    simp only [reachable, Bool.or_eq_true, List.any_eq_true, beq_iff_eq] at h
    obtain ⟨h1, h2⟩ := List.nodup_cons.1 hn
    rcases h with ⟨m, hm, he⟩ | h
    · exact ⟨n, m, List.mem_cons_self .., List.mem_cons_of_mem _ hm, fun h => h1 (h ▸ hm), he.symm⟩
    · obtain ⟨q, q', a, b, c, d⟩ := of_reachable h2 h
      exact ⟨q, q', List.mem_cons_of_mem _ a, List.mem_cons_of_mem _ b, c, d⟩

/-! ### the meaning of a node -/

/-- the node is the fiber `w` -/
def Sem (E : List Edge) (Ω : List Nat) (n : Node) (w : List Lab) : Prop :=
  (∀ q, q ∈ n.ns ↔ Acc E Ω q w) ∧ n.fwd = isForward w

theorem isForward_cons (l : Lab) (w : List Lab) : isForward (l :: w) = (isForward w == !l.rev) := by
  unfold isForward
  cases h : l.rev
  · rw [List.filter_cons_of_neg (by simp [h])]; simp
  · rw [List.filter_cons_of_pos h, List.length_cons]
    rcases Nat.mod_two_eq_zero_or_one (w.filter (·.rev)).length with h | h <;> simp [Nat.add_mod, h]

theorem base_sem {g : Graph} {E : List Edge} {Ω : List Nat} (hg : Rep g E) {n : Nat} {r : List Nat}
    (h : beclose g n Ω = .ok r) : Sem E Ω (baseNode r) [] := by
  obtain ⟨h1, h2, -, h4⟩ := beclose_spec h
  refine ⟨fun q => ⟨fun hq => ?_, fun ha => ?_⟩, rfl⟩
  · exact h4 (fun q => Acc E Ω q []) (fun p hp => .fin hp) (fun p x hp hx => .eps ((hg _ _ _).1 hx) hp) q hq
  · show q ∈ r
    generalize hw : ([] : List Lab) = w at ha
    induction ha with
    | fin h => exact h1 _ h
    | eps h _ ih => exact h2 _ (ih hw) _ ((hg _ _ _).2 h)
    | step _ _ _ => cases hw

theorem acc_cons {E : List Edge} {Ω : List Nat} {q : Nat} {l : Lab} {w : List Lab} (h : Acc E Ω q (l :: w)) :
    ∃ q1 q2, ⟨q1, q2, some l⟩ ∈ E ∧ Acc E Ω q2 w := by
  generalize hw : l :: w = w' at h
  induction h with
  | fin h => cases hw
  | eps h _ ih => exact ih hw
  | step h h' _ => cases hw; exact ⟨_, _, h, h'⟩

theorem makeNode_none {g : Graph} {E : List Edge} {Ω : List Nat} (hg : Rep g E) {T : Node} {ti : Nat} {l : Lab} {w : List Lab}
    (hT : Sem E Ω T w) (h : makeNode g T ti l = none) : ¬ ∃ q, Acc E Ω q (l :: w) := by
  rintro ⟨q, hq⟩
  obtain ⟨q1, q2, he, ha⟩ := acc_cons hq
  unfold makeNode at h
  dsimp only at h
  split at h
  · next hn =>
    have : q1 ∈ stepNodes g l T.ns [] := (stepNodes_mem ..).2 (.inr ⟨q2, (hT.1 _).2 ha, (hg _ _ _).2 he⟩)
    rw [hn] at this
    cases this
  · cases h

theorem makeNode_sem {g : Graph} {E : List Edge} {Ω : List Nat} (hg : Rep g E) {T t : Node} {ti : Nat} {l : Lab} {w : List Lab}
    (hT : Sem E Ω T w) (h : makeNode g T ti l = some t) {n : Nat} {r : List Nat} (hr : beclose g n t.ns = .ok r) :
    Sem E Ω { t with ns := r } (l :: w) := by
  unfold makeNode at h
  dsimp only at h
  split at h
  · cases h
  cases h
  obtain ⟨h1, h2, -, h4⟩ := beclose_spec hr
  dsimp only at h1 h4
  refine ⟨fun q => ⟨fun hq => ?_, fun ha => ?_⟩, ?_⟩
  · refine h4 (fun q => Acc E Ω q (l :: w)) (fun p hp => ?_) (fun p x hp hx => .eps ((hg _ _ _).1 hx) hp) q hq
    rcases (stepNodes_mem ..).1 hp with h | ⟨p', hp', he⟩
    · cases h
    · exact .step ((hg _ _ _).1 he) ((hT.1 _).1 hp')
  · show q ∈ r
    generalize hw : l :: w = w' at ha
    induction ha with
    | fin h => cases hw
    | eps h _ ih => exact h2 _ (ih hw) _ ((hg _ _ _).2 h)
    | step h h' _ =>
      cases hw
      exact h1 _ ((stepNodes_mem ..).2 (.inr ⟨_, (hT.1 _).2 h', (hg _ _ _).2 h⟩))
  · show (T.fwd == !l.rev) = _
    rw [isForward_cons, hT.2]

theorem makeNode_form {g : Graph} {T t : Node} {ti : Nat} {l : Lab} (h : makeNode g T ti l = some t) :
    t.field = some l ∧ t.shorter = some ti ∧ t.ns.Nodup ∧ t.hash = t.ns.sum ∧ t.fwd = (T.fwd == !l.rev) := by
  unfold makeNode at h
  dsimp only at h
  split at h
  · cases h
  cases h
  exact ⟨rfl, rfl, stepNodes_nodup g l _ _ List.nodup_nil, rfl, rfl⟩

theorem sameNode_sem {E : List Edge} {Ω : List Nat} {a b : Node} {w : List Lab} (h : sameNode a b = true) (ha : Sem E Ω a w) :
    Sem E Ω b w := by
  unfold sameNode at h
  split at h
  · cases h
  next h1 =>
  split at h
  · cases h
  split at h
  · cases h
  simp only [Bool.and_eq_true, List.all_eq_true, decide_eq_true_eq] at h
  exact ⟨fun q => ⟨fun hq => (ha.1 q).1 (h.2 q hq), fun hq => h.1 q ((ha.1 q).2 hq)⟩, by
    rw [← ha.2]; exact (not_not.1 h1).symm⟩

theorem getSame_sem {nodes : List Node} {t : Node} : ∀ {n : Nat} {o : Option Nat} {old : Nat}, getSame nodes t n o = some old →
    ∃ a, nodes[old]? = some a ∧ sameNode t a = true
  | 0, o, old, h => nomatch h
  | n + 1, none, old, h => nomatch h
  | n + 1, some i, old, h => by
    simp only [getSame] at h
    split at h
    · cases h
    · next a ha =>
      split at h
      · next hs => cases h; exact ⟨a, ha, hs⟩
      · exact getSame_sem h

theorem sem_pair {E : List Edge} {Ω : List Nat} {n : Node} {w w' : List Lab} (h : Sem E Ω n w) (h' : Sem E Ω n w') :
    ∀ q, Acc E Ω q w ↔ Acc E Ω q w' := fun q => (h.1 q).symm.trans (h'.1 q)

theorem acc_congr {E : List Edge} {Ω : List Nat} {w w' : List Lab} (h : ∀ q, Acc E Ω q w ↔ Acc E Ω q w') (l : Lab) :
    ∀ q, Acc E Ω q (l :: w) ↔ Acc E Ω q (l :: w') := by
  have one : ∀ {w w' : List Lab}, (∀ q, Acc E Ω q w ↔ Acc E Ω q w') → ∀ q, Acc E Ω q (l :: w) → Acc E Ω q (l :: w') := by
    intro w w' h q ha
    generalize hw : l :: w = v at ha
    induction ha with
    | fin h => cases hw
    | eps h _ ih => exact .eps h (ih hw)
    | step he h' _ => cases hw; exact .step he ((h _).1 h')
  exact fun q => ⟨one h q, one (fun q => (h q).symm) q⟩

/-! ### the tree -/

/-- what holds at every moment -/
structure Inv (E : List Edge) (Ω fields : List Nat) (D : St) : Prop where
  base : ∃ n, D.nodes[0]? = some n ∧ n.shorter = none ∧ n.field = none ∧ Sem E Ω n []
  node : ∀ i n, D.nodes[i]? = some n → 0 < i → ∃ l j p, n.field = some l ∧ n.shorter = some j ∧ j < i ∧ l.field ∈ fields ∧
    D.nodes[j]? = some p ∧ (∀ w, Sem E Ω p w → Sem E Ω n (l :: w)) ∧ ∃ q q', q ∈ n.ns ∧ q' ∈ n.ns ∧ q ≠ q' ∧ q / 2 = q' / 2
  tree : ∀ j i l, D.tree j i = some l → ∃ p n, D.nodes[i]? = some p ∧ D.nodes[j]? = some n ∧ ∀ w, Sem E Ω p w → Sem E Ω n (l :: w)
  work : ∀ i ∈ D.work, i < D.nodes.length

/-- the node `i` has its transition for `l` -/
def Has (E : List Edge) (Ω : List Nat) (D : St) (i : Nat) (l : Lab) : Prop :=
  ∀ n w, D.nodes[i]? = some n → Sem E Ω n w → Pair E Ω (l :: w) →
    ∃ j m, D.nodes[j]? = some m ∧ Sem E Ω m (l :: w) ∧ (Distinct E Ω → D.tree j i = some l)

theorem nodes_mono {D D' : St} {i : Nat} {n : Node} (h : D.nodes <+: D'.nodes) (hi : D.nodes[i]? = some n) :
    D'.nodes[i]? = some n := by
  obtain ⟨t, ht⟩ := h
  rw [← ht, List.getElem?_append_left (List.getElem?_eq_some_iff.1 hi).1, hi]

/-- a step of the construction: nodes are kept, and so are the transitions -/
structure Ext (E : List Edge) (Ω : List Nat) (D D' : St) : Prop where
  nodes : D.nodes <+: D'.nodes
  has : ∀ i l, i < D.nodes.length → Has E Ω D i l → Has E Ω D' i l
  keep : ∀ i, i ∈ D'.work ↔ i ∈ D.work ∨ D.nodes.length ≤ i ∧ i < D'.nodes.length

theorem Ext.refl {E : List Edge} {Ω : List Nat} (D : St) : Ext E Ω D D :=
  ⟨List.prefix_refl _, fun _ _ _ h => h, fun _ => ⟨.inl, fun h => h.elim id (fun h => by omega)⟩⟩

theorem Ext.trans {E : List Edge} {Ω : List Nat} {D D' D'' : St} (h : Ext E Ω D D') (h' : Ext E Ω D' D'') : Ext E Ω D D'' :=
  ⟨h.nodes.trans h'.nodes, fun i l hi hh => h'.has i l (Nat.lt_of_lt_of_le hi h.nodes.length_le) (h.has i l hi hh), fun i => by
    have a := h.nodes.length_le
    have b := h'.nodes.length_le
    rw [h'.keep, h.keep, or_assoc]
    refine or_congr_right ?_
    omega⟩

theorem pair_congr {E : List Edge} {Ω : List Nat} {w w' : List Lab} (h : ∀ q, Acc E Ω q w ↔ Acc E Ω q w') (hp : Pair E Ω w) :
    Pair E Ω w' := by
  obtain ⟨q, q', a, b, c, d⟩ := hp
  exact ⟨q, q', a, b, (h _).1 c, (h _).1 d⟩

/-- `placeNode` -/
theorem placeNode_spec {g : Graph} {E : List Edge} {Ω fields : List Nat} (hg : Rep g E) {max : Nat} {t T : Node} {l : Lab}
    {i : Nat} {D D' : St} (hinv : Inv E Ω fields D) (hi : D.nodes[i]? = some T) (hl : l.field ∈ fields)
    (hf : t.field = some l) (hs : t.shorter = some i) (hnd : t.ns.Nodup) (hex : ∃ w, Sem E Ω T w)
    (hsem : ∀ w, Sem E Ω T w → Sem E Ω t (l :: w)) (h : placeNode max t l i D = .ok D') :
    Inv E Ω fields D' ∧ Ext E Ω D D' ∧ Has E Ω D' i l := by
  unfold placeNode at h
  split at h
  · next old ho =>
    cases h
    obtain ⟨a, ha, hsa⟩ := getSame_sem ho
    have hsema : ∀ w, Sem E Ω T w → Sem E Ω a (l :: w) := fun w hw => sameNode_sem hsa (hsem w hw)
    refine ⟨⟨hinv.base, hinv.node, ?_, hinv.work⟩, ⟨List.prefix_refl _, ?_, (Ext.refl (E := E) (Ω := Ω) D).keep⟩, ?_⟩
    · intro j i' l' ht
      unfold setTree at ht
      dsimp only at ht
      split at ht
      · next hc =>
        cases ht
        obtain ⟨rfl, rfl⟩ := hc
        exact ⟨T, a, hi, ha, hsema⟩
      · exact hinv.tree j i' l' ht
    · intro i' l' hi' hh n w hn hw hp
      obtain ⟨j, m, hj, hm, ht⟩ := hh n w hn hw hp
      refine ⟨j, m, hj, hm, fun hd => ?_⟩
      unfold setTree
      dsimp only
      split
      · next hc =>
        obtain ⟨rfl, rfl⟩ := hc
        rw [hi] at hn; cases hn
        rw [ha] at hj; cases hj
        have := hd w l' l hp (sem_pair hm (hsema w hw))
        rw [this]
      · exact ht hd
    · intro n w hn hw hp
      dsimp only at hn
      rw [hi] at hn; cases hn
      refine ⟨old, a, ha, hsema w hw, fun _ => ?_⟩
      simp [setTree]
  · unfold newNode at h
    split at h
    · next hr =>
      split at h
      · cases h
      cases h
      have hpre : D.nodes <+: D.nodes ++ [t] := List.prefix_append ..
      have hlast : (D.nodes ++ [t])[D.nodes.length]? = some t := by simp
      have hmono : ∀ {i : Nat} {n : Node}, D.nodes[i]? = some n → (D.nodes ++ [t])[i]? = some n := by
        intro i n h
        rw [List.getElem?_append_left (List.getElem?_eq_some_iff.1 h).1, h]
      refine ⟨⟨?_, ?_, ?_, ?_⟩, ⟨hpre, ?_, ?_⟩, ?_⟩
      · obtain ⟨n, h1, h2⟩ := hinv.base
        exact ⟨n, hmono h1, h2⟩
      · intro k n hk hpos
        dsimp only at hk
        rcases Nat.lt_or_ge k D.nodes.length with hlt | hge
        · rw [List.getElem?_append_left hlt] at hk
          obtain ⟨l', j, p, h1, h2, h3, h4, h5, h6⟩ := hinv.node k n hk hpos
          exact ⟨l', j, p, h1, h2, h3, h4, hmono h5, h6⟩
        · have : k = D.nodes.length := by
            have := (List.getElem?_eq_some_iff.1 hk).1
            rw [List.length_append, List.length_singleton] at this
            omega
          subst this
          rw [hlast] at hk
          cases hk
          exact ⟨l, i, T, hf, hs, (List.getElem?_eq_some_iff.1 hi).1, hl, hmono hi, hsem, of_reachable hnd hr⟩
      · intro j i' l' ht
        unfold setTree at ht
        dsimp only at ht
        split at ht
        · next hc =>
          cases ht
          obtain ⟨rfl, rfl⟩ := hc
          exact ⟨T, t, hmono hi, hlast, hsem⟩
        · obtain ⟨p, n, h1, h2, h3⟩ := hinv.tree j i' l' ht
          exact ⟨p, n, hmono h1, hmono h2, h3⟩
      · intro k hk
        dsimp only at hk ⊢
        rw [List.length_append, List.length_singleton]
        rcases List.mem_cons.1 hk with rfl | hk
        · omega
        · have := hinv.work k hk; omega
      · intro i' l' hi' hh n w hn hw hp
        dsimp only at hn
        rw [List.getElem?_append_left hi'] at hn
        obtain ⟨j, m, hj, hm, ht⟩ := hh n w hn hw hp
        refine ⟨j, m, hmono hj, hm, fun hd => ?_⟩
        unfold setTree
        dsimp only
        split
        · next hc =>
          have := (List.getElem?_eq_some_iff.1 hj).1
          omega
        · exact ht hd
      · intro k
        dsimp only
        rw [List.length_append, List.length_singleton, List.mem_cons, or_comm]
        refine or_congr_right ?_
        omega
      · intro n w hn hw hp
        dsimp only at hn
        rw [hmono hi] at hn; cases hn
        refine ⟨D.nodes.length, t, hlast, hsem w hw, fun _ => ?_⟩
        simp [setTree]
    · next hr =>
      cases h
      refine ⟨hinv, Ext.refl D, fun n w hn hw hp => ?_⟩
      rw [hi] at hn; cases hn
      obtain ⟨q, q', h1, h2, h3, h4⟩ := hp
      exact absurd (reachable_of (((hsem w hw).1 _).2 h3) (((hsem w hw).1 _).2 h4) h1 h2) hr

theorem sem_sigma {E : List Edge} {Ω : List Nat} {n : Node} {w w' : List Lab} (h : Sem E Ω n w) (h' : Sem E Ω n w') :
    isForward w = isForward w' := h.2.symm.trans h'.2

theorem checkTransition_spec {g : Graph} {E : List Edge} {Ω fields : List Nat} (hg : Rep g E) {fuel max : Nat} {T : Node} {l : Lab}
    {i : Nat} {D D' : St} (hinv : Inv E Ω fields D) (hi : D.nodes[i]? = some T) (hl : l.field ∈ fields) (hex : ∃ w, Sem E Ω T w)
    (h : checkTransition g fuel max (makeNode g T i l) l i D = .ok D') :
    Inv E Ω fields D' ∧ Ext E Ω D D' ∧ Has E Ω D' i l := by
  unfold checkTransition at h
  split at h
  · next hn =>
    cases h
    refine ⟨hinv, Ext.refl D, fun n w hn' hw hp => ?_⟩
    rw [hi] at hn'; cases hn'
    obtain ⟨q, q', _, _, h3, _⟩ := hp
    exact absurd ⟨q, h3⟩ (makeNode_none hg hw hn)
  · next t ht =>
    obtain ⟨ns, hns, h⟩ := Res.bind_eq_ok.1 h
    obtain ⟨f1, f2, f3, f4, f5⟩ := makeNode_form ht
    exact placeNode_spec (t := { t with ns := ns }) hg hinv hi hl f1 f2 ((beclose_spec hns).2.2.1 f3) hex (fun w hw => makeNode_sem hg hw ht hns) h

theorem allFields_spec {g : Graph} {E : List Edge} {Ω fields : List Nat} (hg : Rep g E) {fuel max : Nat} {T : Node} {i : Nat}
    (hex : ∃ w, Sem E Ω T w) : ∀ {fs : List Nat} {D D' : St}, (∀ f ∈ fs, f ∈ fields) → Inv E Ω fields D → D.nodes[i]? = some T →
    allFields g fuel max T i fs D = .ok D' →
    Inv E Ω fields D' ∧ Ext E Ω D D' ∧ ∀ l : Lab, l.field ∈ fs → Has E Ω D' i l
  | [], D, D', _, hinv, hi, h => by cases h; exact ⟨hinv, Ext.refl _, fun l hl => nomatch hl⟩
  | f :: fs, D, D', hfs, hinv, hi, h => by
    simp only [allFields] at h
    obtain ⟨D1, h1, h⟩ := Res.bind_eq_ok.1 h
    obtain ⟨D2, h2, h⟩ := Res.bind_eq_ok.1 h
    have hf : f ∈ fields := hfs f (List.mem_cons_self ..)
    obtain ⟨i1, e1, s1⟩ := checkTransition_spec hg hinv hi hf hex h1
    have hi1 := nodes_mono e1.nodes hi
    obtain ⟨i2, e2, s2⟩ := checkTransition_spec hg i1 hi1 hf hex h2
    have hi2 := nodes_mono e2.nodes hi1
    obtain ⟨i3, e3, s3⟩ := allFields_spec hg hex (fun f' h' => hfs f' (List.mem_cons_of_mem _ h')) i2 hi2 h
    refine ⟨i3, (e1.trans e2).trans e3, fun l hl => ?_⟩
    rcases List.mem_cons.1 hl with hl | hl
    · obtain ⟨lf, lr⟩ := l
      dsimp only at hl
      subst hl
      cases lr
      · exact e3.has i _ (List.getElem?_eq_some_iff.1 hi2).1 (e2.has i _ (List.getElem?_eq_some_iff.1 hi1).1 s1)
      · exact e3.has i _ (List.getElem?_eq_some_iff.1 hi2).1 s2
    · exact s3 l hl

/-- every node is some word -/
theorem Inv.word {E : List Edge} {Ω fields : List Nat} {D : St} (hinv : Inv E Ω fields D) : ∀ (k i : Nat), i < k → ∀ {n},
    D.nodes[i]? = some n → ∃ w, Word D.nodes i w ∧ Sem E Ω n w ∧ Live E Ω w ∧ Over fields w
  | 0, i, hk, n, hn => by omega
  | k + 1, i, hk, n, hn => by
    rcases Nat.eq_zero_or_pos i with rfl | hpos
    · obtain ⟨m, h1, h2, h3, h4⟩ := hinv.base
      rw [h1] at hn; cases hn
      exact ⟨[], .base h1 h2, h4, trivial, fun l hl => nomatch hl⟩
    · obtain ⟨l, j, p, h1, h2, h3, h4, h5, h6, q, q', c1, c2, c3, c4⟩ := hinv.node i n hn hpos
      obtain ⟨w, a, b, c, d⟩ := hinv.word k j (by omega) h5
      have hs := h6 w b
      refine ⟨l :: w, .cons hn h1 h2 a, hs, ⟨⟨q, q', c3, c4, (hs.1 _).1 c1, (hs.1 _).1 c2⟩, c⟩, fun l' hl' => ?_⟩
      rcases List.mem_cons.1 hl' with rfl | hl'
      · exact h4
      · exact d l' hl'

theorem word_det {nodes : List Node} {i : Nat} {w w' : List Lab} (h : Word nodes i w) (h' : Word nodes i w') : w = w' := by
  induction h generalizing w' with
  | base h hs =>
    cases h' with
    | base _ _ => rfl
    | cons h1 _ h3 _ => rw [h] at h1; cases h1; rw [hs] at h3; cases h3
  | cons a1 a2 a3 _ ih =>
    cases h' with
    | base h hs => rw [h] at a1; cases a1; rw [hs] at a3; cases a3
    | cons b1 b2 b3 b4 =>
      rw [a1] at b1; cases b1
      rw [a2] at b2; cases b2
      rw [a3] at b3; cases b3
      rw [ih b4]

theorem workLoop_spec {g : Graph} {E : List Edge} {Ω fields : List Nat} (hg : Rep g E) {fuel max : Nat} :
    ∀ {n : Nat} {D D' : St}, Inv E Ω fields D → (∀ i, i < D.nodes.length → i ∉ D.work → ∀ l : Lab, l.field ∈ fields → Has E Ω D i l) →
    workLoop g fuel max fields n D = .ok D' →
    Inv E Ω fields D' ∧ ∀ i, i < D'.nodes.length → ∀ l : Lab, l.field ∈ fields → Has E Ω D' i l
  | 0, D, D', _, _, h => nomatch h
  | n + 1, D, D', hinv, hd, h => by
    simp only [workLoop] at h
    split at h
    · next hw =>
      cases h
      exact ⟨hinv, fun i hi l hl => hd i hi (by rw [hw]; exact List.not_mem_nil) l hl⟩
    · next i rest hw =>
      split at h
      · cases h
      · next T hT =>
        obtain ⟨D1, h1, h⟩ := Res.bind_eq_ok.1 h
        have hinv0 : Inv E Ω fields { D with work := rest } := ⟨hinv.base, hinv.node, hinv.tree, fun k hk =>
          hinv.work k (by rw [hw]; exact List.mem_cons_of_mem _ hk)⟩
        obtain ⟨w, -, hTw, -⟩ := hinv.word (i + 1) i (Nat.lt_succ_self i) hT
        obtain ⟨i1, e1, s1⟩ := allFields_spec hg ⟨w, hTw⟩ (fun f hf => hf) hinv0 hT h1
        refine workLoop_spec hg i1 (fun k hk hkw l hl => ?_) h
        rcases Nat.lt_or_ge k D.nodes.length with hlt | hge
        · by_cases hki : k = i
          · subst hki
            exact s1 l hl
          · refine e1.has k l hlt (hd k hlt (fun hm => ?_) l hl)
            rw [hw] at hm
            rcases List.mem_cons.1 hm with h | h
            · exact hki h
            · exact hkw ((e1.keep k).2 (.inl h))
        · exact absurd ((e1.keep k).2 (.inr ⟨hge, hk⟩)) hkw

theorem makeDFA_spec {g : Graph} {E : List Edge} {Ω fields : List Nat} (hg : Rep g E) {fuel max : Nat} {D : St}
    (h : makeDFA g Ω fields max fuel = .ok D) :
    Inv E Ω fields D ∧ ∀ i, i < D.nodes.length → ∀ l : Lab, l.field ∈ fields → Has E Ω D i l := by
  unfold makeDFA at h
  obtain ⟨ns, hns, h⟩ := Res.bind_eq_ok.1 h
  refine workLoop_spec hg ⟨⟨_, rfl, rfl, rfl, base_sem hg hns⟩, ?_, (fun j i l h => by cases h), ?_⟩ ?_ h
  · intro i n hn hpos
    have := (List.getElem?_eq_some_iff.1 hn).1
    simp at this; omega
  · simp
  · intro i hi hw
    simp at hi hw; omega

/-- a live word is a node -/
theorem complete {E : List Edge} {Ω fields : List Nat} {D : St} (hinv : Inv E Ω fields D)
    (hall : ∀ i, i < D.nodes.length → ∀ l : Lab, l.field ∈ fields → Has E Ω D i l) : ∀ {w : List Lab}, Live E Ω w → Over fields w →
    ∃ (i : Nat) (n : Node), D.nodes[i]? = some n ∧ Sem E Ω n w
  | [], _, _ => by
    obtain ⟨n, h1, h2, h3, h4⟩ := hinv.base
    exact ⟨0, n, h1, h4⟩
  | l :: w, ⟨hp, hlive⟩, ho => by
    obtain ⟨i, n, hn, hs⟩ := complete hinv hall hlive (fun l' h' => ho l' (List.mem_cons_of_mem _ h'))
    obtain ⟨j, m, hm, hs', -⟩ := hall i (List.getElem?_eq_some_iff.1 hn).1 l (ho l (List.mem_cons_self ..)) n w hn hs hp
    exact ⟨j, m, hm, hs'⟩

/-! ### following fields -/

theorem longerOf_mem {D : St} {i : Nat} : ∀ {k : Nat} {l : Lab} {j : Nat}, (l, j) ∈ longerOf D i k ↔ j < k ∧ D.tree j i = some l
  | 0, l, j => by simp [longerOf]
  | k + 1, l, j => by
    simp only [longerOf]
    split
    · next l' hl =>
      rw [List.mem_cons, longerOf_mem, Prod.mk.injEq]
      constructor
      · rintro (⟨rfl, rfl⟩ | ⟨h, h'⟩)
        · exact ⟨Nat.lt_succ_self _, hl⟩
        · exact ⟨by omega, h'⟩
      · rintro ⟨h, h'⟩
        rcases Nat.lt_or_ge j k with hlt | hge
        · exact .inr ⟨hlt, h'⟩
        · have : j = k := by omega
          subst this
          rw [hl] at h'; cases h'
          exact .inl ⟨rfl, rfl⟩
    · next hl =>
      rw [longerOf_mem]
      constructor
      · rintro ⟨h, h'⟩; exact ⟨by omega, h'⟩
      · rintro ⟨h, h'⟩
        refine ⟨?_, h'⟩
        rcases Nat.lt_or_ge j k with hlt | hge
        · exact hlt
        · have : j = k := by omega
          subst this
          rw [hl] at h'; cases h'

theorem assoc_some {l : Lab} : ∀ {r : List (Lab × Nat)} {v : Nat}, assoc l r = some v → (l, v) ∈ r
  | [], v, h => nomatch h
  | (k, u) :: r, v, h => by
    simp only [assoc] at h
    split at h
    · next hk => cases h; subst hk; exact List.mem_cons_self ..
    · exact List.mem_cons_of_mem _ (assoc_some h)

theorem assoc_of_mem {l : Lab} : ∀ {r : List (Lab × Nat)} {v : Nat}, (l, v) ∈ r → ∃ u, assoc l r = some u
  | (k, u) :: r, v, h => by
    simp only [assoc]
    split
    · exact ⟨_, rfl⟩
    · next hk =>
      rcases List.mem_cons.1 h with h | h
      · cases h; exact absurd rfl hk
      · exact assoc_of_mem h

theorem follow_sound {E : List Edge} {Ω fields : List Nat} {D : St} (hinv : Inv E Ω fields D) : ∀ {w : List Lab} {i : Nat},
    follow D w = some i → ∃ n, D.nodes[i]? = some n ∧ Sem E Ω n w
  | [], i, h => by
    cases h
    obtain ⟨n, h1, h2, h3, h4⟩ := hinv.base
    exact ⟨n, h1, h4⟩
  | l :: w, j, h => by
    simp only [follow] at h
    split at h
    · cases h
    · next i hi =>
      obtain ⟨n, hn, hs⟩ := follow_sound hinv hi
      obtain ⟨-, ht⟩ := longerOf_mem.1 (assoc_some h)
      obtain ⟨p, m, h1, h2, h3⟩ := hinv.tree j i l ht
      rw [hn] at h1; cases h1
      exact ⟨m, h2, h3 w hs⟩

theorem follow_complete {E : List Edge} {Ω fields : List Nat} {D : St} (hinv : Inv E Ω fields D)
    (hall : ∀ i, i < D.nodes.length → ∀ l : Lab, l.field ∈ fields → Has E Ω D i l) (hd : Distinct E Ω) :
    ∀ {w : List Lab}, Live E Ω w → Over fields w → ∃ i, follow D w = some i
  | [], _, _ => ⟨0, rfl⟩
  | l :: w, ⟨hp, hlive⟩, ho => by
    obtain ⟨i, hi⟩ := follow_complete hinv hall hd hlive (fun l' h' => ho l' (List.mem_cons_of_mem _ h'))
    obtain ⟨n, hn, hs⟩ := follow_sound hinv hi
    obtain ⟨j, m, hm, hs', ht⟩ := hall i (List.getElem?_eq_some_iff.1 hn).1 l (ho l (List.mem_cons_self ..)) n w hn hs hp
    simp only [follow, hi]
    exact assoc_of_mem (longerOf_mem.2 ⟨(List.getElem?_eq_some_iff.1 hm).1, ht hd⟩)

/-! ### the end of the construction -/

/-- never undefined, never out of fuel -/
def Ends (D : Res St) (P : St → Prop) : Prop := (∃ s, D = .ok s ∧ P s) ∨ D = .stop

theorem checkTransition_ends {g : Graph} {E : List Edge} (hg : Rep g E) {fuel max : Nat} (hfuel : E.length < fuel) (o : Option Node)
    (l : Lab) (i : Nat) (D : St) (hw : ∀ k ∈ D.work, k < D.nodes.length) : Ends (checkTransition g fuel max o l i D)
      (fun D' => (∀ k ∈ D'.work, k < D'.nodes.length) ∧ D'.work.length + (max - D'.nodes.length) ≤ D.work.length + (max - D.nodes.length)) := by
  unfold checkTransition
  split
  · exact .inl ⟨_, rfl, hw, Nat.le_refl _⟩
  · next t =>
    obtain ⟨r, hr⟩ := beclose_total hg hfuel t.ns
    rw [hr, Res.ok_bind]
    unfold placeNode
    split
    · exact .inl ⟨_, rfl, hw, Nat.le_refl _⟩
    · unfold newNode
      split
      · split
        · exact .inr rfl
        · next hm =>
          refine .inl ⟨_, rfl, fun k hk => ?_, ?_⟩
          · dsimp only at hk ⊢
            rw [List.length_append, List.length_singleton]
            rcases List.mem_cons.1 hk with rfl | hk
            · omega
            · have := hw k hk; omega
          · dsimp only
            rw [List.length_append, List.length_singleton, List.length_cons]
            omega
      · exact .inl ⟨_, rfl, hw, Nat.le_refl _⟩

theorem allFields_ends {g : Graph} {E : List Edge} (hg : Rep g E) {fuel max : Nat} (hfuel : E.length < fuel) (T : Node) (i : Nat) :
    ∀ (fs : List Nat) (D : St), (∀ k ∈ D.work, k < D.nodes.length) → Ends (allFields g fuel max T i fs D)
      (fun D' => (∀ k ∈ D'.work, k < D'.nodes.length) ∧ D'.work.length + (max - D'.nodes.length) ≤ D.work.length + (max - D.nodes.length))
  | [], D, hw => .inl ⟨_, rfl, hw, Nat.le_refl _⟩
  | f :: fs, D, hw => by
    simp only [allFields]
    rcases checkTransition_ends hg hfuel (max := max) (makeNode g T i ⟨f, false⟩) ⟨f, false⟩ i D hw with ⟨D1, h1, w1, m1⟩ | h1
    · rw [h1, Res.ok_bind]
      rcases checkTransition_ends hg hfuel (max := max) (makeNode g T i ⟨f, true⟩) ⟨f, true⟩ i D1 w1 with ⟨D2, h2, w2, m2⟩ | h2
      · rw [h2, Res.ok_bind]
        rcases allFields_ends hg hfuel (max := max) T i fs D2 w2 with ⟨D3, h3, w3, m3⟩ | h3
        · exact .inl ⟨D3, h3, w3, by omega⟩
        · exact .inr h3
      · rw [h2]; exact .inr rfl
    · rw [h1]; exact .inr rfl

theorem workLoop_ends {g : Graph} {E : List Edge} (hg : Rep g E) {fuel max : Nat} (hfuel : E.length < fuel) (fields : List Nat) :
    ∀ (n : Nat) (D : St), (∀ k ∈ D.work, k < D.nodes.length) → D.work.length + (max - D.nodes.length) < n →
    Ends (workLoop g fuel max fields n D) (fun _ => True)
  | 0, D, _, h => by omega
  | n + 1, D, hw, h => by
    simp only [workLoop]
    split
    · exact .inl ⟨_, rfl, trivial⟩
    · next i rest hwk =>
      have hi : i < D.nodes.length := hw i (by rw [hwk]; exact List.mem_cons_self ..)
      rw [List.getElem?_eq_getElem hi]
      dsimp only
      rcases allFields_ends hg hfuel (max := max) D.nodes[i] i fields { D with work := rest } (fun k hk =>
        hw k (by rw [hwk]; exact List.mem_cons_of_mem _ hk)) with ⟨D1, h1, w1, m1⟩ | h1
      · rw [h1, Res.ok_bind]
        refine workLoop_ends hg hfuel fields n D1 w1 ?_
        dsimp only at m1
        rw [hwk, List.length_cons] at h
        omega
      · rw [h1]; exact .inr rfl

theorem makeDFA_ends {g : Graph} {E : List Edge} (hg : Rep g E) {fuel max : Nat} (hfuel : max + E.length + 1 < fuel)
    (Ω fields : List Nat) : Ends (makeDFA g Ω fields max fuel) (fun _ => True) := by
  unfold makeDFA
  obtain ⟨r, hr⟩ := beclose_total hg (by omega : E.length < fuel) Ω
  rw [hr, Res.ok_bind]
  exact workLoop_ends hg (by omega) fields fuel _ (by simp) (by simp; omega)

theorem fibersFrom_mem {q : Nat} {fwd : Bool} : ∀ {ns : List Node} {k i : Nat}, i ∈ fibersFrom q fwd k ns ↔
    ∃ n, k ≤ i ∧ ns[i - k]? = some n ∧ q ∈ n.ns ∧ q + 1 ∈ n.ns ∧ n.fwd = fwd
  | [], k, i => by simp [fibersFrom]
  | n :: ns, k, i => by
    simp only [fibersFrom]
    rw [List.mem_append, fibersFrom_mem]
    constructor
    · rintro (⟨m, h1, h2, h3⟩ | h)
      · refine ⟨m, by omega, ?_, h3⟩
        rw [show i - k = (i - (k + 1)) + 1 by omega, List.getElem?_cons_succ]
        exact h2
      · split at h
        · next hc =>
          rw [List.mem_singleton] at h
          subst h
          exact ⟨n, Nat.le_refl _, by simp, hc⟩
        · cases h
    · rintro ⟨m, h1, h2, h3⟩
      rcases Nat.eq_or_lt_of_le h1 with rfl | hlt
      · right
        rw [Nat.sub_self, List.getElem?_cons_zero] at h2
        cases h2
        rw [if_pos h3]
        exact List.mem_singleton.2 rfl
      · left
        refine ⟨m, hlt, ?_, h3⟩
        rw [show i - k = (i - (k + 1)) + 1 by omega, List.getElem?_cons_succ] at h2
        exact h2

theorem fiberSet_mem {D : St} {q : Nat} {fwd : Bool} {i : Nat} : i ∈ fiberSet D q fwd ↔
    ∃ n, 1 ≤ i ∧ D.nodes[i]? = some n ∧ q ∈ n.ns ∧ q + 1 ∈ n.ns ∧ n.fwd = fwd := by
  unfold fiberSet
  rw [fibersFrom_mem]
  refine exists_congr fun n => and_congr_right fun h => ?_
  rw [List.getElem?_tail, Nat.sub_add_cancel h]

end Aps.Dfa

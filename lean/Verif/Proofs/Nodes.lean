import Verif.Spec.Nodes
import Mathlib.Data.List.Basic
import Mathlib.Tactic.Common
/-! # Proofs about nodes -/
namespace Aps.Nodes
open Aps.Service (Ty TDef)

/-- The marked arguments that are nodes. -/
def kids : List Bool → List Val → List Nat
  | true :: ms, .node x :: vs => x :: kids ms vs
  | _ :: ms, _ :: vs => kids ms vs
  | _, _ => []

theorem mem_kids {x : Nat} : ∀ {ms : List Bool} {vs : List Val},
    x ∈ kids ms vs ↔ ∃ i : Nat, ms[i]? = some true ∧ vs[i]? = some (Val.node x)
  | [], vs => by simp [kids]
  | _ :: _, [] => by simp [kids]
  | m :: ms, v :: vs => by
    have ih := mem_kids (x := x) (ms := ms) (vs := vs)
    have split : (∃ i : Nat, (m :: ms)[i]? = some true ∧ (v :: vs)[i]? = some (Val.node x)) ↔
        (m = true ∧ v = .node x) ∨ ∃ i : Nat, ms[i]? = some true ∧ vs[i]? = some (Val.node x) := by
      constructor
      · rintro ⟨i, h1, h2⟩
        cases i with
        | zero => simp at h1 h2; exact .inl ⟨h1, h2⟩
        | succ i => simp at h1 h2; exact .inr ⟨i, h1, h2⟩
      · rintro (⟨h1, h2⟩ | ⟨i, h1, h2⟩)
        · exact ⟨0, by simp [h1], by simp [h2]⟩
        · exact ⟨i + 1, by simpa using h1, by simpa using h2⟩
    rw [split, ← ih]
    cases m <;> cases v <;> simp [kids, eq_comm]

/-- What `linkAll` does to a node. -/
def Linked (a : Nat) (ks : List Nat) (ns ns' : List Node) : Prop :=
  ns'.length = ns.length ∧ (∀ x ∈ ks, x < a) ∧ ∀ x : Nat, ns'[x]? = (ns[x]?).map fun n => if x ∈ ks then { n with par := .node a } else n

theorem Linked.nil (a : Nat) (ns : List Node) : Linked a [] ns ns := ⟨rfl, by simp, fun x => by cases ns[x]? <;> simp⟩

theorem linked_set {a x : Nat} {n : Node} {ns ns' : List Node} {ks : List Nat} (hx : ns[x]? = some n) (ha : x < a)
    (h : Linked a ks (ns.set x { n with par := .node a }) ns') : Linked a (x :: ks) ns ns' := by
  refine ⟨by rw [h.1]; simp, fun y hy => ?_, fun y => ?_⟩
  · rcases List.mem_cons.1 hy with rfl | hy
    · exact ha
    · exact h.2.1 y hy
  · rw [h.2.2 y, List.getElem?_set]
    have hl := (List.getElem?_eq_some_iff.1 hx).1
    by_cases e : x = y
    · subst e
      simp only [if_true, hl, hx, Option.map_some]
      by_cases hk : x ∈ ks <;> simp [hk]
    · have e' : ¬ y = x := fun h => e h.symm
      simp only [if_neg e, List.mem_cons, e', false_or]

theorem link_cpp {a : Nat} : ∀ (ms : List Bool) (vs : List Val) (ns ns' : List Node),
    linkAll (setCpp a) ms vs ns = .ok ns' → Linked a (kids ms vs) ns ns'
  | [], vs, ns, ns', h => by cases h; exact .nil a ns
  | true :: ms, [], ns, ns', h => by cases h; exact .nil a ns
  | false :: ms, [], ns, ns', h => by cases h; exact .nil a ns
  | false :: ms, v :: vs, ns, ns', h => by
    have := link_cpp ms vs ns ns' h
    cases v <;> exact this
  | true :: ms, v :: vs, ns, ns', h => by
    obtain ⟨n1, h1, h2⟩ := Res.bind_eq_ok.1 h
    have ih := link_cpp ms vs n1 ns' h2
    cases v with
    | nil => cases h1
    | prim v => cases h1
    | node x =>
      cases hx : ns[x]? with
      | none => simp [setCpp, hx] at h1
      | some n =>
        simp only [setCpp, hx] at h1
        split at h1
        · cases h1
          exact linked_set hx (by assumption) ih
        · cases h1

theorem link_scala {a : Nat} : ∀ (ms : List Bool) (vs : List Val) (ns ns' : List Node),
    linkAll (setScala a) ms vs ns = .ok ns' → Linked a (kids ms vs) ns ns' ∧
      (kids ms vs).Nodup ∧ ∀ x ∈ kids ms vs, ∃ n : Node, ns[x]? = some n ∧ n.par = .null
  | [], vs, ns, ns', h => by cases h; exact ⟨.nil a ns, by simp [kids], by simp [kids]⟩
  | true :: ms, [], ns, ns', h => by cases h; exact ⟨.nil a ns, by simp [kids], by simp [kids]⟩
  | false :: ms, [], ns, ns', h => by cases h; exact ⟨.nil a ns, by simp [kids], by simp [kids]⟩
  | false :: ms, v :: vs, ns, ns', h => by
    have := link_scala ms vs ns ns' h
    cases v <;> exact this
  | true :: ms, v :: vs, ns, ns', h => by
    obtain ⟨n1, h1, h2⟩ := Res.bind_eq_ok.1 h
    obtain ⟨ih, hd, hn⟩ := link_scala ms vs n1 ns' h2
    cases v with
    | nil => cases h1
    | prim v => cases h1
    | node x =>
      cases hx : ns[x]? with
      | none => simp [setScala, hx] at h1
      | some n =>
        simp only [setScala, hx] at h1
        split at h1
        · split at h1
          · rename_i hlt hp
            cases h1
            have hl := (List.getElem?_eq_some_iff.1 hx).1
            have hk : x ∉ kids ms vs := by
              intro hk
              obtain ⟨n', e, hp'⟩ := hn x hk
              rw [List.getElem?_set, if_pos rfl, if_pos hl] at e
              cases e; cases hp'
            refine ⟨linked_set hx hlt ih, List.nodup_cons.2 ⟨hk, hd⟩, fun y hy => ?_⟩
            rcases List.mem_cons.1 hy with rfl | hy
            · exact ⟨n, hx, hp⟩
            · obtain ⟨n', e, hp'⟩ := hn y hy
              have hne : ¬ x = y := fun e => hk (e ▸ hy)
              rw [List.getElem?_set, if_neg hne] at e
              exact ⟨n', e, hp'⟩
          · cases h1
        · cases h1

/-- `b` has `x` for a marked formal. -/
def Kid (marks : Nat → List Bool) (ns : List Node) (b x : Nat) : Prop :=
  ∃ n : Node, ns[b]? = some n ∧ x ∈ kids (marks n.con) n.fields

/-- What does not change. -/
def Same (ns ns' : List Node) : Prop := ∀ (x : Nat) (n : Node), ns[x]? = some n → ∃ p, ns'[x]? = some { n with par := p }

theorem Same.refl (ns : List Node) : Same ns ns := fun x n h => ⟨n.par, h⟩

theorem Same.trans {a b c : List Node} (h : Same a b) (h' : Same b c) : Same a c := by
  intro x n hx
  obtain ⟨p, hp⟩ := h x n hx
  obtain ⟨q, hq⟩ := h' x _ hp
  exact ⟨q, hq⟩

/-- The nodes after a call: those before, changed, and the new one. -/
structure Built (a : Nat) (ks : List Nat) (new : Node) (ns ns' : List Node) : Prop where
  len : ns.length = a
  new : ns'[a]? = some new
  lt : ∀ x ∈ ks, x < a
  old : ∀ x : Nat, x < a → ns'[x]? = (ns[x]?).map fun n => if x ∈ ks then { n with par := .node a } else n
  all : ns'.length = a + 1

theorem built_of_linked {a : Nat} {ks : List Nat} {new : Node} {ns ns' : List Node} (hl : ns.length = a)
    (h : Linked a ks (ns ++ [new]) ns') : Built a ks new ns ns' := by
  refine ⟨hl, ?_, h.2.1, fun x hx => ?_, by rw [h.1]; simp [hl]⟩
  · rw [h.2.2 a, ← hl, List.getElem?_concat_length, Option.map_some]
    have : ns.length ∉ ks := fun hk => by have := h.2.1 _ hk; omega
    rw [if_neg this]
  · rw [h.2.2 x, List.getElem?_append_left (by omega)]

theorem Built.same {a ks new ns ns'} (h : Built a ks new ns ns') : Same ns ns' := by
  intro x n hx
  have hl := (List.getElem?_eq_some_iff.1 hx).1
  have := h.old x (by rw [← h.len]; exact hl)
  rw [hx, Option.map_some] at this
  by_cases hk : x ∈ ks
  · rw [if_pos hk] at this; exact ⟨_, this⟩
  · rw [if_neg hk] at this; exact ⟨n.par, this⟩

theorem Built.cases {a ks new ns ns'} (h : Built a ks new ns ns') {x : Nat} {n' : Node} (hx : ns'[x]? = some n') :
    (x = a ∧ n' = new) ∨ (x < a ∧ ∃ n : Node, ns[x]? = some n ∧ n' = if x ∈ ks then { n with par := .node a } else n) := by
  have hl := (List.getElem?_eq_some_iff.1 hx).1
  rw [h.all] at hl
  by_cases e : x = a
  · subst e
    rw [h.new] at hx; cases hx; exact .inl ⟨rfl, rfl⟩
  · have hlt : x < a := by omega
    rw [h.old x hlt] at hx
    cases hn : ns[x]? with
    | none => rw [hn] at hx; cases hx
    | some n => rw [hn, Option.map_some] at hx; cases hx; exact .inr ⟨hlt, n, rfl, rfl⟩

theorem Built.kid {a ks new ns ns'} {marks : Nat → List Bool} (h : Built a ks new ns ns') (hk : ks = kids (marks new.con) new.fields)
    {b x : Nat} : Kid marks ns' b x ↔ (b = a ∧ x ∈ ks) ∨ Kid marks ns b x := by
  constructor
  · rintro ⟨n', hb, hx⟩
    rcases h.cases hb with ⟨e, rfl⟩ | ⟨-, n, hn, rfl⟩
    · exact .inl ⟨e, hk ▸ hx⟩
    · refine .inr ⟨n, hn, ?_⟩
      by_cases hm : b ∈ ks
      · rw [if_pos hm] at hx; exact hx
      · rw [if_neg hm] at hx; exact hx
  · rintro (⟨rfl, hx⟩ | ⟨n, hn, hx⟩)
    · exact ⟨new, h.new, hk ▸ hx⟩
    · obtain ⟨p, hp⟩ := h.same b n hn
      exact ⟨_, hp, hx⟩

/-- The invariant in C++. -/
structure Inv (marks : Nat → List Bool) (ns : List Node) : Prop where
  of_par : ∀ (x : Nat) (n : Node) (b : Nat), ns[x]? = some n → n.par = .node b → Kid marks ns b x
  of_kid : ∀ (x : Nat) (n : Node) (b : Nat), ns[x]? = some n → Kid marks ns b x → ∃ b', n.par = .node b'
  last : ∀ (x : Nat) (n : Node) (b b' : Nat), ns[x]? = some n → n.par = .node b → Kid marks ns b' x → b' ≤ b
  lt : ∀ b x, Kid marks ns b x → x < b

theorem inv_built {marks : Nat → List Bool} {a ks new ns ns'} (I : Inv marks ns) (h : Built a ks new ns ns')
    (hk : ks = kids (marks new.con) new.fields) (hp : ∀ b, new.par ≠ .node b) : Inv marks ns' := by
  have small : ∀ b x, Kid marks ns b x → b < a := by
    rintro b x ⟨n, hn, -⟩
    have := (List.getElem?_eq_some_iff.1 hn).1
    rw [h.len] at this; exact this
  refine ⟨fun x n' b hx hb => ?_, fun x n' b hx hb => ?_, fun x n' b b' hx hb hb' => ?_, fun b x hb => ?_⟩
  · rcases h.cases hx with ⟨-, rfl⟩ | ⟨-, n, hn, rfl⟩
    · exact absurd hb (hp b)
    · by_cases hm : x ∈ ks
      · rw [if_pos hm] at hb
        cases hb
        exact (h.kid hk).2 (.inl ⟨rfl, hm⟩)
      · rw [if_neg hm] at hb
        exact (h.kid hk).2 (.inr (I.of_par x n b hn hb))
  · rcases h.cases hx with ⟨rfl, rfl⟩ | ⟨-, n, hn, rfl⟩
    · rcases (h.kid hk).1 hb with ⟨-, hm⟩ | hb
      · exact absurd (h.lt _ hm) (by omega)
      · have h1 := small _ _ hb; have h2 := I.lt _ _ hb; omega
    · by_cases hm : x ∈ ks
      · rw [if_pos hm]; exact ⟨a, rfl⟩
      · rw [if_neg hm]
        rcases (h.kid hk).1 hb with ⟨-, hm'⟩ | hb
        · exact absurd hm' hm
        · exact I.of_kid x n b hn hb
  · rcases h.cases hx with ⟨-, rfl⟩ | ⟨-, n, hn, rfl⟩
    · exact absurd hb (hp b)
    · by_cases hm : x ∈ ks
      · rw [if_pos hm] at hb
        cases hb
        rcases (h.kid hk).1 hb' with ⟨rfl, -⟩ | hb'
        · exact Nat.le_refl _
        · exact Nat.le_of_lt (small _ _ hb')
      · rw [if_neg hm] at hb
        rcases (h.kid hk).1 hb' with ⟨-, hm'⟩ | hb'
        · exact absurd hm' hm
        · exact I.last x n b b' hn hb hb'
  · rcases (h.kid hk).1 hb with ⟨rfl, hm⟩ | hb
    · exact h.lt _ hm
    · exact I.lt _ _ hb

/-- The invariant in Scala. -/
structure InvS (marks : Nat → List Bool) (ns : List Node) : Prop where
  of_par : ∀ (x : Nat) (n : Node) (b : Nat), ns[x]? = some n → (n.par = .node b ↔ Kid marks ns b x)
  clean : ∀ (x : Nat) (n : Node), ns[x]? = some n → n.par ≠ .garbage
  lt : ∀ b x, Kid marks ns b x → x < b

theorem invS_built {marks : Nat → List Bool} {a ks new ns ns'} (I : InvS marks ns) (h : Built a ks new ns ns')
    (hk : ks = kids (marks new.con) new.fields) (hp : new.par = .null) (hz : ∀ x ∈ ks, ∃ n : Node, ns[x]? = some n ∧ n.par = .null) :
    InvS marks ns' := by
  have small : ∀ b x, Kid marks ns b x → b < a := by
    rintro b x ⟨n, hn, -⟩
    have := (List.getElem?_eq_some_iff.1 hn).1
    rw [h.len] at this; exact this
  have lt' : ∀ b x, Kid marks ns' b x → x < b := fun b x hb => by
    rcases (h.kid hk).1 hb with ⟨rfl, hm⟩ | hb
    · exact h.lt _ hm
    · exact I.lt _ _ hb
  refine ⟨fun x n' b hx => ?_, fun x n' hx => ?_, lt'⟩
  · rcases h.cases hx with ⟨rfl, rfl⟩ | ⟨hxa, n, hn, rfl⟩
    · rw [hp]
      refine ⟨fun h => (by cases h), fun hb => ?_⟩
      have h1 := lt' _ _ hb
      rcases (h.kid hk).1 hb with ⟨rfl, -⟩ | hb
      · omega
      · have := small _ _ hb; omega
    · by_cases hm : x ∈ ks
      · rw [if_pos hm, h.kid hk]
        obtain ⟨n0, hn0, hz0⟩ := hz x hm
        rw [hn] at hn0; cases hn0
        constructor
        · intro e; cases e; exact .inl ⟨rfl, hm⟩
        · rintro (⟨rfl, -⟩ | hb)
          · rfl
          · have := (I.of_par x n b hn).2 hb
            rw [hz0] at this; cases this
      · rw [if_neg hm, h.kid hk, I.of_par x n b hn]
        exact ⟨.inr, fun h => h.elim (fun h => absurd h.2 hm) id⟩
  · rcases h.cases hx with ⟨-, rfl⟩ | ⟨-, n, hn, rfl⟩
    · rw [hp]; intro h; cases h
    · by_cases hm : x ∈ ks
      · rw [if_pos hm]; intro h; cases h
      · rw [if_neg hm]; exact I.clean x n hn

/-! ### Calls -/

/-- The marks that count. -/
def used (P : Prog) (marks : Nat → List Bool) (c : Nat) : List Bool := if (P.con c).syntax then marks c else []

/-- A call in C++. -/
theorem built_cpp {P : Prog} {c : Nat} {args : List Val} {h h' : Heap} (e : buildCpp P c args h = .ok h') :
    (∃ p, (∀ b, p ≠ .node b) ∧ Built h.nodes.length (kids (used P (cppMarks P) c) args)
      ⟨c, if (P.con c).syntax then (h.phyla (P.con c).base).length else 0, p, args⟩ h.nodes h'.nodes) ∧
    h'.phyla = (if (P.con c).syntax then (addNode (P.con c) c .garbage args h).phyla else h.phyla) := by
  unfold buildCpp at e
  by_cases hs : (P.con c).syntax = true
  · rw [if_pos hs] at e
    simp only [used, hs, if_true]
    split at e
    · cases e
    · obtain ⟨ns, h1, h2⟩ := Res.bind_eq_ok.1 e
      cases h2
      exact ⟨⟨.garbage, fun b h => (by cases h), built_of_linked rfl (link_cpp _ _ _ _ h1)⟩, rfl⟩
  · rw [if_neg hs] at e
    simp only [used, hs, Bool.false_eq_true, if_false]
    split at e
    · cases e
    · cases e
      refine ⟨⟨.null, fun b h => (by cases h), ?_⟩, rfl⟩
      rw [show kids [] args = [] by simp [kids]]
      exact built_of_linked rfl (.nil _ _)

theorem built_scala {P : Prog} {marks : Nat → List Bool} {c : Nat} {args : List Val} {h h' : Heap}
    (e : buildScala P marks c args h = .ok h') :
    Built h.nodes.length (kids (used P marks c) args)
      ⟨c, if (P.con c).syntax then (h.phyla (P.con c).base).length else 0, .null, args⟩ h.nodes h'.nodes ∧
    (∀ x ∈ kids (used P marks c) args, ∃ n : Node, h.nodes[x]? = some n ∧ n.par = .null) ∧
    h'.phyla = (if (P.con c).syntax then (addNode (P.con c) c .null args h).phyla else h.phyla) := by
  unfold buildScala at e
  by_cases hs : (P.con c).syntax = true
  · rw [if_pos hs] at e
    simp only [used, hs, if_true]
    split at e
    · cases e
    · obtain ⟨ns, h1, h2⟩ := Res.bind_eq_ok.1 e
      cases h2
      obtain ⟨l1, l2, l3⟩ := link_scala _ _ _ _ h1
      refine ⟨built_of_linked rfl l1, fun x hx => ?_, rfl⟩
      obtain ⟨n, hn, hp⟩ := l3 x hx
      have hlt := l1.2.1 x hx
      have hn : (h.nodes ++ [_])[x]? = some n := hn
      rw [List.getElem?_append_left hlt] at hn
      exact ⟨n, hn, hp⟩
  · rw [if_neg hs] at e
    simp only [used, hs, Bool.false_eq_true, if_false]
    cases e
    refine ⟨?_, by simp [kids], rfl⟩
    rw [show kids [] args = [] by simp [kids]]
    exact built_of_linked rfl (.nil _ _)

/-! ### Numbers -/

/-- The lists of nodes of the phyla. -/
structure Num (P : Prog) (h : Heap) : Prop where
  num : ∀ p k x, (h.phyla p)[k]? = some x ↔ ∃ n : Node, h.nodes[x]? = some n ∧ (P.con n.con).syntax = true ∧ (P.con n.con).base = p ∧ n.number = k

theorem num_built {P : Prog} {c : Nat} {args : List Val} {h h' : Heap} {ks : List Nat} {q r : Par} (N : Num P h)
    (b : Built h.nodes.length ks ⟨c, if (P.con c).syntax then (h.phyla (P.con c).base).length else 0, q, args⟩ h.nodes h'.nodes)
    (e : h'.phyla = (if (P.con c).syntax then (addNode (P.con c) c r args h).phyla else h.phyla)) : Num P h' := by
  refine ⟨fun p k x => ?_⟩
  have old : (∃ n : Node, h'.nodes[x]? = some n ∧ (P.con n.con).syntax = true ∧ (P.con n.con).base = p ∧ n.number = k) ↔
      (∃ n : Node, h.nodes[x]? = some n ∧ (P.con n.con).syntax = true ∧ (P.con n.con).base = p ∧ n.number = k) ∨
      (x = h.nodes.length ∧ (P.con c).syntax = true ∧ (P.con c).base = p ∧ (h.phyla (P.con c).base).length = k) := by
    constructor
    · rintro ⟨n', hx, h1, h2, h3⟩
      rcases b.cases hx with ⟨e, rfl⟩ | ⟨-, n, hn, rfl⟩
      · exact .inr ⟨e, h1, h2, by simpa [show (P.con c).syntax = true from h1] using h3⟩
      · refine .inl ⟨n, hn, ?_⟩
        by_cases hm : x ∈ ks
        · simp only [if_pos hm] at h1 h2 h3; exact ⟨h1, h2, h3⟩
        · simp only [if_neg hm] at h1 h2 h3; exact ⟨h1, h2, h3⟩
    · rintro (⟨n, hn, h1⟩ | ⟨rfl, h1, h2, h3⟩)
      · obtain ⟨p', hp⟩ := b.same x n hn
        exact ⟨_, hp, h1⟩
      · exact ⟨_, b.new, h1, h2, by simpa [h1] using h3⟩
  rw [old, ← N.num p k x, e]
  by_cases hs : (P.con c).syntax = true
  · simp only [hs, if_true, true_and, addNode]
    by_cases hp : p = (P.con c).base
    · subst hp
      simp only [if_true, true_and]
      constructor
      · intro h1
        rcases Nat.lt_or_ge k (h.phyla (P.con c).base).length with hk | hk
        · rw [List.getElem?_append_left hk] at h1; exact .inl h1
        · rw [List.getElem?_append_right hk] at h1
          have := (List.getElem?_eq_some_iff.1 h1).1
          simp only [List.length_singleton] at this
          have hk' : k = (h.phyla (P.con c).base).length := by omega
          subst hk'
          simp at h1
          exact .inr ⟨h1.symm, rfl⟩
      · rintro (h1 | ⟨rfl, rfl⟩)
        · rw [List.getElem?_append_left (List.getElem?_eq_some_iff.1 h1).1]; exact h1
        · simp
    · have hp' : ¬ (P.con c).base = p := fun e => hp e.symm
      simp only [if_neg hp, hp', false_and, and_false, or_false]
  · simp only [hs, Bool.false_eq_true, if_false, false_and, and_false, or_false]

theorem num_empty (P : Prog) : Num P empty := ⟨fun p k x => by simp [empty]⟩

theorem inv_cpp {P : Prog} {h : Heap} (H : History P (buildCpp P) empty h) : Inv (used P (cppMarks P)) h.nodes ∧ Num P h := by
  induction H with
  | refl =>
    refine ⟨⟨?_, ?_, ?_, ?_⟩, num_empty P⟩ <;> simp [Kid, empty]
  | call _ _ b ih =>
    obtain ⟨I, N⟩ := ih
    obtain ⟨⟨p, hp, b⟩, q⟩ := built_cpp b
    exact ⟨inv_built I b rfl hp, num_built N b q⟩
  | finish _ ih => exact ⟨ih.1, ⟨ih.2.num⟩⟩

theorem inv_scala {P : Prog} {marks : Nat → List Bool} {h : Heap} (H : History P (buildScala P marks) empty h) :
    InvS (used P marks) h.nodes ∧ Num P h := by
  induction H with
  | refl =>
    refine ⟨⟨?_, ?_, ?_⟩, num_empty P⟩ <;> simp [Kid, empty]
  | call _ _ b ih =>
    obtain ⟨I, N⟩ := ih
    obtain ⟨b, hz, q⟩ := built_scala b
    exact ⟨invS_built I b rfl rfl hz, num_built N b q⟩
  | finish _ ih => exact ⟨ih.1, ⟨ih.2.num⟩⟩

theorem same_history {P : Prog} {build : Nat → List Val → Heap → Res Heap}
    (hb : ∀ c args h h', build c args h = .ok h' → Same h.nodes h'.nodes) {h h' : Heap} (H : History P build h h') :
    Same h.nodes h'.nodes := by
  induction H with
  | refl => exact .refl _
  | call _ _ b ih => exact ih.trans (hb _ _ _ _ b)
  | finish _ ih => exact ih

theorem same_cpp (P : Prog) (c : Nat) (args : List Val) (h h' : Heap) (e : buildCpp P c args h = .ok h') : Same h.nodes h'.nodes := by
  obtain ⟨⟨p, -, b⟩, -⟩ := built_cpp e
  exact b.same

theorem same_scala (P : Prog) (marks : Nat → List Bool) (c : Nat) (args : List Val) (h h' : Heap)
    (e : buildScala P marks c args h = .ok h') : Same h.nodes h'.nodes := (built_scala e).1.same

/-! ### Closed phyla -/

theorem shut {P : Prog} {build : Nat → List Val → Heap → Res Heap}
    (hb : ∀ c args h h', build c args h = .ok h' → h'.closed = h.closed ∧ ∀ p, h.closed p = true → h'.phyla p = h.phyla p)
    {h h' : Heap} (H : History P build h h') {p : Nat} (hp : h.closed p = true) : h'.phyla p = h.phyla p ∧ h'.closed p = true := by
  induction H with
  | refl => exact ⟨rfl, hp⟩
  | call _ _ b ih =>
    obtain ⟨b1, b2⟩ := hb _ _ _ _ b
    exact ⟨by rw [b2 p ih.2, ih.1], by rw [b1]; exact ih.2⟩
  | @finish _ q _ ih =>
    refine ⟨ih.1, ?_⟩
    show (if p = _ then true else _) = true
    split
    · rfl
    · exact ih.2

theorem add_shut {C : Con} {c : Nat} {r : Par} {args : List Val} {h : Heap} (hc : ¬ h.closed C.base = true) (p : Nat)
    (hp : h.closed p = true) : (addNode C c r args h).phyla p = h.phyla p := by
  show (if p = C.base then _ else _) = _
  rw [if_neg]
  rintro rfl
  exact hc hp

theorem shut_cpp (P : Prog) (c : Nat) (args : List Val) (h h' : Heap) (e : buildCpp P c args h = .ok h') :
    h'.closed = h.closed ∧ ∀ p, h.closed p = true → h'.phyla p = h.phyla p := by
  unfold buildCpp at e
  split at e
  · split at e
    · cases e
    · obtain ⟨ns, -, h2⟩ := Res.bind_eq_ok.1 e
      cases h2
      exact ⟨rfl, fun p hp => add_shut (r := .null) (c := c) (args := args) (by assumption) p hp⟩
  · split at e
    · cases e
    · cases e; exact ⟨rfl, fun _ _ => rfl⟩

theorem shut_scala (P : Prog) (marks : Nat → List Bool) (c : Nat) (args : List Val) (h h' : Heap)
    (e : buildScala P marks c args h = .ok h') : h'.closed = h.closed ∧ ∀ p, h.closed p = true → h'.phyla p = h.phyla p := by
  unfold buildScala at e
  split at e
  · split at e
    · cases e
    · obtain ⟨ns, -, h2⟩ := Res.bind_eq_ok.1 e
      cases h2
      exact ⟨rfl, fun p hp => add_shut (r := .null) (c := c) (args := args) (by assumption) p hp⟩
  · cases e; exact ⟨rfl, fun _ _ => rfl⟩

/-! ### Marks and phyla -/

/-- The marks are those of the formals whose types are phyla. -/
def Exact (P : Prog) (marks : Nat → List Bool) : Prop :=
  ∀ c (i : Nat), (marks c)[i]? = some true ↔ ∃ t, (P.con c).formals[i]? = some t ∧ IsPhylum P t

theorem kid_child {P : Prog} {marks : Nat → List Bool} (hm : Exact P marks) {h : Heap} {b x : Nat} :
    Kid (used P marks) h.nodes b x ↔ Child P h b x := by
  constructor
  · rintro ⟨n, hn, hx⟩
    obtain ⟨i, h1, h2⟩ := mem_kids.1 hx
    by_cases hs : (P.con n.con).syntax = true
    · rw [used, if_pos hs] at h1
      obtain ⟨t, ht, hp⟩ := (hm _ _).1 h1
      exact ⟨n, i, t, hn, hs, ht, hp, h2⟩
    · rw [used, if_neg hs] at h1
      simp at h1
  · rintro ⟨n, i, t, hn, hs, ht, hp, h2⟩
    refine ⟨n, hn, mem_kids.2 ⟨i, ?_, h2⟩⟩
    rw [used, if_pos hs]
    exact (hm _ _).2 ⟨t, ht, hp⟩

theorem exact_cpp {P : Prog} (hd : Direct P) : Exact P (cppMarks P) := by
  intro c i
  rw [cppMarks, List.getElem?_map]
  cases ht : (P.con c).formals[i]? with
  | none => simp
  | some t =>
    have key : cppChild P t = true ↔ IsPhylum P t := by
      constructor
      · intro h
        cases t with
        | use u =>
          simp only [cppChild] at h
          split at h
          · rename_i e; exact .decl e
          · rename_i e; exact .formal e
          · cases h
        | _ => cases h
      · intro h
        obtain ⟨u, rfl, hu⟩ := hd c t (List.mem_of_getElem? ht) h
        cases h with
        | decl e => simp [cppChild, e]
        | formal e => simp [cppChild, e]
        | again e => exact absurd e (hu _)
    simp [key]

theorem typeIsSyntax_ok {P : Prog} : ∀ (fuel : Nat) (t : Ty) (b : Bool), typeIsSyntax P fuel t = .ok b → (b = true ↔ IsPhylum P t)
  | 0, t, b, h => by simp [typeIsSyntax] at h
  | fuel + 1, t, b, h => by
    cases t with
    | use u =>
      rw [typeIsSyntax] at h
      cases e : P.tdef u with
      | phylumFormal s => rw [e] at h; cases h; exact ⟨fun _ => .formal e, fun _ => rfl⟩
      | phylumDecl s => rw [e] at h; cases h; exact ⟨fun _ => .decl e, fun _ => rfl⟩
      | «renaming» t =>
        rw [e] at h
        rw [typeIsSyntax_ok fuel t b h]
        refine ⟨.again e, fun h => ?_⟩
        cases h with
        | decl e' => rw [e] at e'; cases e'
        | formal e' => rw [e] at e'; cases e'
        | again e' i => rw [e] at e'; cases e'; exact i
      | _ =>
        rw [e] at h
        cases h <;>
        · refine ⟨fun h => (by cases h), fun h => ?_⟩
          cases h with
          | decl e' => rw [e] at e'; cases e'
          | formal e' => rw [e] at e'; cases e'
          | again e' => rw [e] at e'; cases e'
    | inst m =>
      simp [typeIsSyntax] at h
      subst h
      exact ⟨.inst, fun h => (by cases h; assumption)⟩
    | _ =>
      simp [typeIsSyntax] at h
      subst h
      exact ⟨fun h => (by cases h), fun h => (by cases h)⟩

theorem scalaMarks_ok {P : Prog} {fuel : Nat} : ∀ {ts : List Ty} {ms : List Bool}, scalaMarks P fuel ts = .ok ms →
    ∀ i : Nat, ms[i]? = some true ↔ ∃ t, ts[i]? = some t ∧ IsPhylum P t
  | [], ms, h, i => by cases h; simp
  | t :: ts, ms, h, i => by
    obtain ⟨b, hb, h⟩ := Res.bind_eq_ok.1 h
    obtain ⟨bs, hbs, h⟩ := Res.bind_eq_ok.1 h
    cases h
    cases i with
    | zero => simpa using typeIsSyntax_ok fuel t b hb
    | succ i => simpa using scalaMarks_ok hbs i

theorem exact_scala {P : Prog} {fuel : Nat} {marks : Nat → List Bool} (hm : ∀ c, scalaMarks P fuel (P.con c).formals = .ok (marks c)) :
    Exact P marks := fun c => scalaMarks_ok (hm c)

/-! ### Tags -/

theorem init_ok (body : List (Nat × Nat)) (hn : (body.map _root_.Prod.fst).Nodup) : ∀ (ds done : List (Nat × Nat)) (reg : Nat → List Nat),
    body = done ++ ds → (∀ t, reg t = enumOf done t) → ∃ reg', initAll body ds reg = .ok reg' ∧ ∀ t, reg' t = enumOf body t
  | [], done, reg, e, hr => ⟨reg, rfl, fun t => by rw [hr, e, List.append_nil]⟩
  | (d, t) :: ds, done, reg, e, hr => by
    have idx : (enumOf body t).idxOf d = (reg t).length := by
      have hd : d ∉ enumOf done t := by
        intro h
        obtain ⟨x, hx, rfl⟩ := List.mem_map.1 h
        rw [e, List.map_append, List.nodup_append] at hn
        exact hn.2.2 _ (List.mem_map.2 ⟨x, (List.mem_filter.1 hx).1, rfl⟩) x.1 (by simp) rfl
      rw [hr, e]
      simp only [enumOf, List.filter_append, List.map_append, List.filter_cons, decide_true, if_true, List.map_cons]
      have hd' : d ∉ (done.filter fun d => d.2 = t).map _root_.Prod.fst := hd
      rw [List.idxOf_append_of_notMem hd']
      simp
    have step : initAll body ((d, t) :: ds) reg = initAll body ds (fun u => if u = t then reg t ++ [d] else reg u) := by
      rw [initAll, if_pos idx]
    rw [step]
    refine init_ok body hn ds (done ++ [(d, t)]) _ (by rw [e]; simp) fun u => ?_
    simp only [enumOf, List.filter_append, List.map_append]
    by_cases hu : u = t
    · subst hu; simp [hr, enumOf]
    · have hu' : ¬ t = u := fun e => hu e.symm
      simp [hu, hu', hr, enumOf]

end Aps.Nodes

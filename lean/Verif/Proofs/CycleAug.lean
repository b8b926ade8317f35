import Verif.Proofs.CyclePhy
/-! The UP/DOWN pass on augmented graphs. -/
set_option linter.unusedVariables false
namespace Aps.Cycle
open Aps.Dnc

/-- the cells hold edges of their own -/
structure GW (g : Aug) : Prop where
  len : g.cells.length = g.n * g.n
  ok : ∀ i j, i < g.n → j < g.n → ∀ e ∈ g.cell i j, e.src = i ∧ e.snk = j

theorem GW.of_wf {g : Aug} (h : GWf g) : GW g := ⟨h.len, fun i j hi hj e he => ⟨(h.ok i j hi hj e he).1, (h.ok i j hi hj e he).2.1⟩⟩

/-- the set of edges `es` is at most `a.1`, and its conditions are part of `a.2` -/
def Dom (a : Dep × Cond) (es : List Edge) : Prop := ∀ e ∈ es, Le e.kind a.1 ∧ e.cond.sub a.2

/-- `es'` is `es` with the dependency `a` added, which covers all of it -/
structure Covered (a : Dep × Cond) (es es' : List Edge) : Prop where
  kind : edgesetKind es' = a.1
  at_ : ∀ σ t, (kindAt σ es').getLsbD t = true ↔ (kindAt σ es).getLsbD t = true ∨ (Sat σ a.2 ∧ a.1.getLsbD t = true)

theorem addEdge_dom (src snk : Nat) (a : Dep × Cond) (hk : a.1 ≠ 0) (es : List Edge) (w : Wl)
    (hok : ∀ e ∈ es, e.src = src ∧ e.snk = snk) (hd : Dom a es) :
    ∃ es' w', addEdge src snk a.1 a.2 es w = .ok (es', w') ∧ (∀ e ∈ es', e.src = src ∧ e.snk = snk) ∧ Dom a es' ∧ Covered a es es' := by
  induction es generalizing w with
  | nil =>
    refine ⟨_, _, by rw [addEdge, if_neg hk], ?_, ?_, ?_, ?_⟩
    · simp
    · intro e he; rw [List.mem_singleton.1 he]; exact ⟨Le.refl _, Cond.sub_refl _⟩
    · rw [dep_eq_iff]; intro t; rw [edgesetKind_bit]; simp
    · intro σ t; rw [kindAt_bit, kindAt_bit]; simp
  | cons cur rest ih =>
    obtain ⟨hle, hsub⟩ := hd cur (by simp)
    have hcur := hok cur (by simp)
    have hdr : Dom a rest := fun e he => hd e (by simp [he])
    have hokr : ∀ e ∈ rest, e.src = src ∧ e.snk = snk := fun e he => hok e (by simp [he])
    obtain ⟨s1, s2, s3, s4⟩ := condCompare_spec a.2 cur.cond
    have hlt : condCompare a.2 cur.cond = .lt ∨ condCompare a.2 cur.cond = .eq := by
      by_cases he : a.2 = cur.cond
      · exact .inr (s1.2 he)
      · exact .inl (s2.2 ⟨hsub, he⟩)
    rw [addEdge, if_neg hk]
    simp only
    rw [if_neg (by rw [hcur.1, hcur.2]; simp)]
    by_cases b1 : atMost a.1 cur.kind = true ∧ (condCompare a.2 cur.cond = .lt ∨ condCompare a.2 cur.cond = .eq)
    · rw [if_pos b1]
      have hle2 := atMost_iff.1 b1.1
      have hkeq : cur.kind = a.1 := Le.antisymm hle hle2
      refine ⟨_, _, rfl, hok, hd, ?_, ?_⟩
      · rw [dep_eq_iff]; intro t; rw [edgesetKind_bit]
        constructor
        · rintro ⟨e, he, hb⟩; exact (hd e he).1 t hb
        · intro h; exact ⟨cur, by simp, by rw [hkeq]; exact h⟩
      · intro σ t
        constructor
        · exact .inl
        · rintro (h | ⟨h1, h2⟩)
          · exact h
          · rw [kindAt_bit]; exact ⟨cur, by simp, h1.mono hsub, by rw [hkeq]; exact h2⟩
    rw [if_neg b1]
    have hnk : ¬ (cur.kind = a.1) := by
      intro h; exact b1 ⟨by rw [h]; exact atMost_iff.2 (Le.refl _), hlt⟩
    by_cases b2 : atMost cur.kind a.1 = true ∧ (condCompare a.2 cur.cond = .gt ∨ condCompare a.2 cur.cond = .eq)
    · rw [if_pos b2]
      have hceq : a.2 = cur.cond := by
        rcases b2.2 with h | h
        · rcases hlt with h' | h' <;> rw [h] at h' <;> cases h'
        · exact s1.1 h
      obtain ⟨es', w', e1, p1, p2, p3⟩ := ih (freeEdge w cur) hokr hdr
      refine ⟨es', w', e1, p1, p2, p3.kind, ?_⟩
      intro σ t
      rw [p3.at_ σ t, kindAt, join_bit]
      by_cases hs : Sat σ cur.cond
      · rw [← hceq] at hs
        simp only [← hceq, hs, if_true, true_and]
        constructor
        · rintro (h | h)
          · exact .inl (.inr h)
          · exact .inr h
        · rintro ((h | h) | h)
          · exact .inr (hle t h)
          · exact .inl h
          · exact .inr h
      · simp [hs]
    rw [if_neg b2, if_neg (fun h => hnk h.1)]
    obtain ⟨es', w', e1, p1, p2, p3⟩ := ih w hokr hdr
    refine ⟨cur :: es', w', by rw [e1]; rfl, ?_, ?_, ?_, ?_⟩
    · intro e he
      rcases List.mem_cons.1 he with rfl | he
      · exact hcur
      · exact p1 e he
    · intro e he
      rcases List.mem_cons.1 he with rfl | he
      · exact ⟨hle, hsub⟩
      · exact p2 e he
    · rw [dep_eq_iff]; intro t
      have := dep_eq_iff.1 p3.kind t
      rw [edgesetKind_bit] at this ⊢
      constructor
      · rintro ⟨e, he, hb⟩
        rcases List.mem_cons.1 he with rfl | he
        · exact hle t hb
        · exact this.1 ⟨e, he, hb⟩
      · intro h
        obtain ⟨e, he, hb⟩ := this.2 h
        exact ⟨e, by simp [he], hb⟩
    · intro σ t
      rw [kindAt, join_bit, p3.at_ σ t, kindAt, join_bit]
      by_cases hs : Sat σ cur.cond <;> simp [hs, or_assoc]

theorem combine_bit (es : List Edge) (a : Dep × Cond) :
    (∀ t, (combine es a).1.getLsbD t = true ↔ a.1.getLsbD t = true ∨ ∃ e ∈ es, e.kind.getLsbD t = true) ∧
    (∀ t, (combine es a).2.pos.getLsbD t = true ↔ a.2.pos.getLsbD t = true ∨ ∃ e ∈ es, e.cond.pos.getLsbD t = true) ∧
    (∀ t, (combine es a).2.neg.getLsbD t = true ↔ a.2.neg.getLsbD t = true ∨ ∃ e ∈ es, e.cond.neg.getLsbD t = true) := by
  unfold combine
  induction es generalizing a with
  | nil => simp
  | cons e es ih =>
    obtain ⟨h1, h2, h3⟩ := ih (join a.1 e.kind, ⟨a.2.pos ||| e.cond.pos, a.2.neg ||| e.cond.neg⟩)
    rw [List.foldl_cons]
    refine ⟨fun t => ?_, fun t => ?_, fun t => ?_⟩
    · rw [h1, join_bit]; simp [or_assoc]
    · rw [h2]; simp [or_assoc]
    · rw [h3]; simp [or_assoc]

theorem orEdges_bit (inC : Nat → Bool) (f : Nat → List Edge) (ls : List Nat) :
    (∀ t, (orEdges inC f ls).1.getLsbD t = true ↔ ∃ l ∈ ls, inC l = true ∧ ∃ e ∈ f l, e.kind.getLsbD t = true) ∧
    (∀ t, (orEdges inC f ls).2.pos.getLsbD t = true ↔ ∃ l ∈ ls, inC l = true ∧ ∃ e ∈ f l, e.cond.pos.getLsbD t = true) ∧
    (∀ t, (orEdges inC f ls).2.neg.getLsbD t = true ↔ ∃ l ∈ ls, inC l = true ∧ ∃ e ∈ f l, e.cond.neg.getLsbD t = true) := by
  have : ∀ (ls : List Nat) (a : Dep × Cond),
      (∀ t, (ls.foldl (fun a l => if inC l then combine (f l) a else a) a).1.getLsbD t = true ↔
        a.1.getLsbD t = true ∨ ∃ l ∈ ls, inC l = true ∧ ∃ e ∈ f l, e.kind.getLsbD t = true) ∧
      (∀ t, (ls.foldl (fun a l => if inC l then combine (f l) a else a) a).2.pos.getLsbD t = true ↔
        a.2.pos.getLsbD t = true ∨ ∃ l ∈ ls, inC l = true ∧ ∃ e ∈ f l, e.cond.pos.getLsbD t = true) ∧
      (∀ t, (ls.foldl (fun a l => if inC l then combine (f l) a else a) a).2.neg.getLsbD t = true ↔
        a.2.neg.getLsbD t = true ∨ ∃ l ∈ ls, inC l = true ∧ ∃ e ∈ f l, e.cond.neg.getLsbD t = true) := by
    intro ls
    induction ls with
    | nil => simp
    | cons l ls ih =>
      intro a
      rw [List.foldl_cons]
      cases h : inC l with
      | false =>
        obtain ⟨h1, h2, h3⟩ := ih a
        simp only [Bool.false_eq_true, if_false]
        refine ⟨fun t => ?_, fun t => ?_, fun t => ?_⟩
        · rw [h1]; simp [h]
        · rw [h2]; simp [h]
        · rw [h3]; simp [h]
      | true =>
        obtain ⟨h1, h2, h3⟩ := ih (combine (f l) a)
        obtain ⟨c1, c2, c3⟩ := combine_bit (f l) a
        simp only [if_true]
        refine ⟨fun t => ?_, fun t => ?_, fun t => ?_⟩
        · rw [h1, c1]; simp [h, or_assoc]
        · rw [h2, c2]; simp [h, or_assoc]
        · rw [h3, c3]; simp [h, or_assoc]
  obtain ⟨h1, h2, h3⟩ := this ls (0, ⟨0, 0⟩)
  unfold orEdges
  refine ⟨fun t => ?_, fun t => ?_, fun t => ?_⟩
  · rw [h1]; simp
  · rw [h2]; simp
  · rw [h3]; simp

theorem orEdges_kind (inC : Nat → Bool) (f : Nat → List Edge) (ls : List Nat) :
    (orEdges inC f ls).1 = orDep inC (fun l => edgesetKind (f l)) ls := by
  rw [dep_eq_iff]; intro t
  rw [(orEdges_bit inC f ls).1, orDep_bit]
  simp only [edgesetKind_bit]

theorem orEdges_dom (inC : Nat → Bool) (f : Nat → List Edge) (ls : List Nat) {l : Nat} (hl : l ∈ ls) (hc : inC l = true) :
    Dom (orEdges inC f ls) (f l) := by
  obtain ⟨h1, h2, h3⟩ := orEdges_bit inC f ls
  intro e he
  exact ⟨fun t ht => (h1 t).2 ⟨l, hl, hc, e, he, ht⟩,
    fun t => ⟨fun ht => (h2 t).2 ⟨l, hl, hc, e, he, ht⟩, fun ht => (h3 t).2 ⟨l, hl, hc, e, he, ht⟩⟩⟩

/-- same shape -/
structure Shape (g g' : Aug) : Prop where
  n : g'.n = g.n
  attrs : g'.attrs = g.attrs
  links : g'.links = g.links

theorem Shape.refl (g : Aug) : Shape g g := ⟨rfl, rfl, rfl⟩
theorem Shape.trans {g h k : Aug} (a : Shape g h) (b : Shape h k) : Shape g k :=
  ⟨b.n.trans a.n, b.attrs.trans a.attrs, b.links.trans a.links⟩

theorem addEdgeToGraph_dom {g : Aug} (w : GW g) {i j : Nat} (hi : i < g.n) (hj : j < g.n) {a : Dep × Cond} (hk : a.1 ≠ 0)
    (hd : Dom a (g.cell i j)) :
    ∃ g', addEdgeToGraph i j a.2 a.1 g = .ok g' ∧ GW g' ∧ Shape g g' ∧ Covered a (g.cell i j) (g'.cell i j) ∧
      ∀ x y, y < g.n → ¬ (x = i ∧ y = j) → g'.cell x y = g.cell x y := by
  obtain ⟨es', w', e1, p1, p2, p3⟩ := addEdge_dom i j a hk (g.cell i j) g.wl (w.ok i j hi hj) hd
  have cs := fun x y (hy : y < g.n) => cell_set (a := x) (es := es') (w := w') w.len hi hj hy
  refine ⟨{ g with cells := g.cells.set (i * g.n + j) es', wl := w' }, ?_, ⟨?_, ?_⟩, ⟨rfl, rfl, rfl⟩, ?_, ?_⟩
  · unfold addEdgeToGraph; rw [e1]; rfl
  · simp [w.len]
  · intro x y hx hy e he
    simp only at hx hy
    rw [cs x y hy] at he
    split at he
    · rename_i h; obtain ⟨rfl, rfl⟩ := h; exact p1 e he
    · exact w.ok x y hx hy e he
  · rw [cs i j hj, if_pos ⟨rfl, rfl⟩]; exact p3
  · intro x y hy hne; rw [cs x y hy, if_neg hne]

theorem removeEdgeset_spec {g : Aug} (w : GW g) {i j : Nat} (hi : i < g.n) (hj : j < g.n) :
    GW (removeEdgeset g i j) ∧ Shape g (removeEdgeset g i j) ∧ (removeEdgeset g i j).cell i j = [] ∧
      ∀ x y, y < g.n → ¬ (x = i ∧ y = j) → (removeEdgeset g i j).cell x y = g.cell x y := by
  have cs := fun x y (hy : y < g.n) => cell_set (a := x) (es := []) (w := (g.cell i j).foldl freeEdge g.wl) w.len hi hj hy
  refine ⟨⟨?_, ?_⟩, ⟨rfl, rfl, rfl⟩, ?_, ?_⟩
  · simp [removeEdgeset, w.len]
  · intro x y hx hy e he
    unfold removeEdgeset at he hx hy
    simp only at hx hy
    rw [cs x y hy] at he
    split at he
    · cases he
    · exact w.ok x y hx hy e he
  · unfold removeEdgeset; rw [cs i j hj, if_pos ⟨rfl, rfl⟩]
  · intro x y hy hne; unfold removeEdgeset; rw [cs x y hy, if_neg hne]

/-- cell of `addEdges` -/
def ends (k : Nat) (out : Bool) (l : Nat) : Nat × Nat := if out then (l, k) else (k, l)

theorem addEdges_spec {inC : Nat → Bool} {k : Nat} {out : Bool} {a : Dep × Cond} (ha : a.1 ≠ 0) (ls : List Nat) {g : Aug} (w : GW g)
    (hk : k < g.n) (hls : ∀ l ∈ ls, l < g.n) (hnd : ls.Nodup)
    (hd : ∀ l ∈ ls, inC l = true → Dom a (g.cell (ends k out l).1 (ends k out l).2)) :
    ∃ g', addEdges inC k out a ls g = .ok g' ∧ GW g' ∧ Shape g g' ∧
      (∀ l ∈ ls, inC l = true → Covered a (g.cell (ends k out l).1 (ends k out l).2) (g'.cell (ends k out l).1 (ends k out l).2)) ∧
      (∀ x y, y < g.n → (∀ l ∈ ls, inC l = true → ends k out l ≠ (x, y)) → g'.cell x y = g.cell x y) := by
  induction ls generalizing g with
  | nil => exact ⟨g, rfl, w, Shape.refl g, by simp, fun _ _ _ _ => rfl⟩
  | cons l ls ih =>
    rw [List.nodup_cons] at hnd
    have hl := hls l (by simp)
    rw [addEdges]
    cases hc : inC l with
    | false =>
      simp only [Bool.false_eq_true, if_false]
      obtain ⟨g', e1, p1, p2, p3, p4⟩ := ih w hk (fun x hx => hls x (by simp [hx])) hnd.2 (fun x hx => hd x (by simp [hx]))
      refine ⟨g', e1, p1, p2, ?_, ?_⟩
      · intro x hx hcx
        rcases List.mem_cons.1 hx with rfl | hx
        · rw [hc] at hcx; cases hcx
        · exact p3 x hx hcx
      · intro x y hy h; exact p4 x y hy (fun z hz => h z (by simp [hz]))
    | true =>
      simp only [if_true]
      have hend : ((if out = true then l else k), (if out = true then k else l)) = ends k out l := by unfold ends; cases out <;> rfl
      have he1 : (if out = true then l else k) = (ends k out l).1 := by rw [← hend]
      have he2 : (if out = true then k else l) = (ends k out l).2 := by rw [← hend]
      rw [he1, he2]
      have b1 : (ends k out l).1 < g.n := by unfold ends; cases out <;> assumption
      have b2 : (ends k out l).2 < g.n := by unfold ends; cases out <;> assumption
      obtain ⟨g1, e1, q1, q2, q3, q4⟩ := addEdgeToGraph_dom w b1 b2 ha (hd l (by simp) hc)
      have inj : ∀ x, ends k out x = ends k out l → x = l := by
        intro x; unfold ends; cases out <;> simp
      have bnd : ∀ x, x < g.n → (ends k out x).2 < g.n := by intro x hx; unfold ends; cases out <;> assumption
      have keepc : ∀ x ∈ ls, g1.cell (ends k out x).1 (ends k out x).2 = g.cell (ends k out x).1 (ends k out x).2 := by
        intro x hx
        apply q4 _ _ (bnd x (hls x (by simp [hx])))
        rintro ⟨h1, h2⟩
        have := inj x (Prod.ext h1 h2)
        subst this; exact hnd.1 hx
      obtain ⟨g', e2, p1, p2, p3, p4⟩ := ih q1 (by rw [q2.n]; exact hk) (fun x hx => by rw [q2.n]; exact hls x (by simp [hx])) hnd.2
        (fun x hx hcx => by rw [keepc x hx]; exact hd x (by simp [hx]) hcx)
      refine ⟨g', by rw [e1]; exact e2, p1, q2.trans p2, ?_, ?_⟩
      · intro x hx hcx
        rcases List.mem_cons.1 hx with rfl | hx
        · rw [p4 _ _ (by rw [q2.n]; exact b2)]
          · exact q3
          · intro z hz _ hh
            have := inj z hh; subst this; exact hnd.1 hz
        · have := p3 x hx hcx
          rw [keepc x hx] at this; exact this
      · intro x y hy h
        rw [p4 x y (by rw [q2.n]; exact hy) (fun z hz => h z (by simp [hz]))]
        apply q4 x y hy
        rintro ⟨rfl, rfl⟩
        exact h l (by simp) hc rfl

theorem inEdges_spec {inC : Nat → Bool} {k : Nat} {a : Dep × Cond} {keep : Nat → Bool} (ha : ∀ l, keep l = true → a.1 ≠ 0) (ls : List Nat) {g : Aug} (w : GW g)
    (hk : k < g.n) (hls : ∀ l ∈ ls, l < g.n) (hnd : ls.Nodup)
    (hd : ∀ l ∈ ls, inC l = true → keep l = true → Dom a (g.cell k l)) :
    ∃ g', inEdges inC k a keep ls g = .ok g' ∧ GW g' ∧ Shape g g' ∧
      (∀ l ∈ ls, inC l = true → (keep l = true → Covered a (g.cell k l) (g'.cell k l)) ∧ (keep l = false → g'.cell k l = [])) ∧
      (∀ x y, y < g.n → (∀ l ∈ ls, inC l = true → (k, l) ≠ (x, y)) → g'.cell x y = g.cell x y) := by
  induction ls generalizing g with
  | nil => exact ⟨g, rfl, w, Shape.refl g, by simp, fun _ _ _ _ => rfl⟩
  | cons l ls ih =>
    rw [List.nodup_cons] at hnd
    have hl := hls l (by simp)
    rw [inEdges]
    cases hc : inC l with
    | false =>
      simp only [Bool.false_eq_true, if_false]
      obtain ⟨g', e1, p1, p2, p3, p4⟩ := ih w hk (fun x hx => hls x (by simp [hx])) hnd.2 (fun x hx => hd x (by simp [hx]))
      refine ⟨g', e1, p1, p2, ?_, ?_⟩
      · intro x hx hcx
        rcases List.mem_cons.1 hx with rfl | hx
        · rw [hc] at hcx; cases hcx
        · exact p3 x hx hcx
      · intro x y hy h; exact p4 x y hy (fun z hz => h z (by simp [hz]))
    | true =>
      simp only [if_true]
      -- one step, then the rest
      have fin : ∀ g1, GW g1 → Shape g g1 →
          ((keep l = true → Covered a (g.cell k l) (g1.cell k l)) ∧ (keep l = false → g1.cell k l = [])) →
          (∀ x y, y < g.n → ¬ (x = k ∧ y = l) → g1.cell x y = g.cell x y) →
          ∃ g', inEdges inC k a keep ls g1 = .ok g' ∧ GW g' ∧ Shape g g' ∧
            (∀ x ∈ l :: ls, inC x = true → (keep x = true → Covered a (g.cell k x) (g'.cell k x)) ∧ (keep x = false → g'.cell k x = [])) ∧
            (∀ x y, y < g.n → (∀ z ∈ l :: ls, inC z = true → (k, z) ≠ (x, y)) → g'.cell x y = g.cell x y) := by
        intro g1 q1 q2 q3 q4
        have keepc : ∀ x ∈ ls, g1.cell k x = g.cell k x := by
          intro x hx
          apply q4 _ _ (hls x (by simp [hx]))
          rintro ⟨_, rfl⟩; exact hnd.1 hx
        obtain ⟨g', e2, p1, p2, p3, p4⟩ := ih q1 (by rw [q2.n]; exact hk) (fun x hx => by rw [q2.n]; exact hls x (by simp [hx])) hnd.2
          (fun x hx hcx hkx => by rw [keepc x hx]; exact hd x (by simp [hx]) hcx hkx)
        refine ⟨g', e2, p1, q2.trans p2, ?_, ?_⟩
        · intro x hx hcx
          rcases List.mem_cons.1 hx with rfl | hx
          · rw [p4 _ _ (by rw [q2.n]; exact hl)]
            · exact q3
            · intro z hz _ hh
              have : z = x := by simpa using hh
              subst this; exact hnd.1 hz
          · have := p3 x hx hcx
            rw [keepc x hx] at this; exact this
        · intro x y hy h
          rw [p4 x y (by rw [q2.n]; exact hy) (fun z hz => h z (by simp [hz]))]
          apply q4 x y hy
          rintro ⟨rfl, rfl⟩
          exact h y (by simp) hc rfl
      cases hkl : keep l with
      | true =>
        simp only [if_true]
        obtain ⟨g1, e1, q1, q2, q3, q4⟩ := addEdgeToGraph_dom w hk hl (ha l hkl) (hd l (by simp) hc hkl)
        rw [e1, Res.ok_bind]
        exact fin g1 q1 q2 ⟨fun _ => q3, fun h => absurd h (by rw [hkl]; simp)⟩ q4
      | false =>
        simp only [Bool.false_eq_true, if_false]
        obtain ⟨q1, q2, q3, q4⟩ := removeEdgeset_spec w hk hl
        exact fin _ q1 q2 ⟨fun h => absurd h (by rw [hkl]; simp), fun _ => q3⟩ q4

/-- which edges the pass leaves inside a class of an augmented graph -/
def augKeep (dir : Bool) (up : Nat → Bool) (a b : Nat) : Prop := (up a = dir ∧ up b = !dir)

instance (dir : Bool) (up : Nat → Bool) : DecidableRel (augKeep dir up) := fun a b => by unfold augKeep; infer_instance

/-- the kinds of the dependencies of a graph -/
def kinds (g : Aug) (a b : Nat) : Dep := edgesetKind (g.cell a b)

/-- dependencies that are not inside the class only grow, and those outside it do not change -/
def Grows (inC : Nat → Bool) (g g' : Aug) : Prop := ∀ a b, a < g.n → b < g.n →
  (¬ (inC a = true ∧ inC b = true) → ∀ σ, Le (kindAt σ (g.cell a b)) (kindAt σ (g'.cell a b))) ∧
  (inC a = false → inC b = false → g'.cell a b = g.cell a b)

theorem edgesetKind_nil : edgesetKind [] = 0 := rfl

theorem augOutsideDir_spec {inC : Nat → Bool} {k : Nat} {out : Bool} {g : Aug} (w : GW g) (hk : k < g.n) (hck : inC k = false) :
    ∃ g', augOutsideDir inC k out g = .ok g' ∧ GW g' ∧ Shape g g' ∧
      (∀ l, l < g.n → inC l = true → kinds g' (ends k out l).1 (ends k out l).2 =
        orDep inC (fun l => kinds g (ends k out l).1 (ends k out l).2) (List.range g.n)) ∧
      (∀ x y, y < g.n → (∀ l, l < g.n → inC l = true → ends k out l ≠ (x, y)) → g'.cell x y = g.cell x y) ∧
      (∀ x y, x < g.n → y < g.n → ∀ σ, Le (kindAt σ (g.cell x y)) (kindAt σ (g'.cell x y))) := by
  unfold augOutsideDir
  have hf : (fun l => if out = true then g.cell l k else g.cell k l) = (fun l => g.cell (ends k out l).1 (ends k out l).2) := by
    funext l; unfold ends; cases out <;> rfl
  rw [hf]
  simp only
  split
  · rename_i h0
    obtain ⟨g', e1, p1, p2, p3, p4⟩ := addEdges_spec (inC := inC) (k := k) (out := out) h0 (List.range g.n) w hk (fun l hl => List.mem_range.1 hl)
      List.nodup_range (fun l hl hc => orEdges_dom inC (fun l => g.cell (ends k out l).1 (ends k out l).2) _ hl hc)
    refine ⟨g', e1, p1, p2, ?_, fun x y hy h => p4 x y hy (fun l hl => h l (List.mem_range.1 hl)), ?_⟩
    · intro l hl hc
      rw [kinds, (p3 l (List.mem_range.2 hl) hc).kind, orEdges_kind]; rfl
    · intro x y hx hy σ
      by_cases h : ∃ l ∈ List.range g.n, inC l = true ∧ ends k out l = (x, y)
      · obtain ⟨l, hl, hc, he⟩ := h
        have := p3 l hl hc
        rw [he] at this
        intro t ht
        exact (this.at_ σ t).2 (.inl ht)
      · rw [p4 x y hy (fun l hl hc he => h ⟨l, hl, hc, he⟩)]; exact Le.refl _
  · rename_i h0
    rw [not_not] at h0
    refine ⟨g, rfl, w, Shape.refl g, ?_, fun _ _ _ _ => rfl, fun _ _ _ _ _ => Le.refl _⟩
    intro l hl hc
    rw [orEdges_kind] at h0
    have : orDep inC (fun l => kinds g (ends k out l).1 (ends k out l).2) (List.range g.n) = 0 := h0
    rw [this]
    exact orDep_zero this l hl hc

theorem augBreakRow_spec {dir : Bool} {inC up : Nat → Bool} {k : Nat} {g : Aug} (w : GW g) (hk : k < g.n) :
    ∃ g', augBreakRow dir inC up g k = .ok g' ∧ GW g' ∧ Shape g g' ∧ Grows inC g g' ∧
      ∀ a b, a < g.n → b < g.n → kinds g' a b =
        if owner inC a b = k then passNew (augKeep dir up) inC g.n (kinds g) a b else kinds g a b := by
  unfold augBreakRow
  cases hck : inC k with
  | false =>
    simp only [if_true]
    unfold augOutside
    obtain ⟨g1, e1, p1, p2, p3, p4, p5⟩ := augOutsideDir_spec (out := false) w hk hck
    obtain ⟨g2, e2, q1, q2, q3, q4, q5⟩ := augOutsideDir_spec (out := true) p1 (by rw [p2.n]; exact hk) hck
    rw [p2.n] at q3 q4 q5
    refine ⟨g2, by rw [e1, Res.ok_bind]; exact e2, q1, p2.trans q2, ?_, ?_⟩
    · intro a b ha hb
      refine ⟨fun _ σ => (p5 a b ha hb σ).trans' (q5 a b ha hb σ), fun h1 h2 => ?_⟩
      rw [q4 a b hb, p4 a b hb]
      · intro l hl hc he; simp only [ends, Bool.false_eq_true, if_false, Prod.mk.injEq] at he
        rw [he.2, h2] at hc; cases hc
      · intro l hl hc he; simp only [ends, if_true, Prod.mk.injEq] at he
        rw [he.1, h1] at hc; cases hc
    · intro a b ha hb
      have hcol : ∀ l, l < g.n → inC l = true → g1.cell l k = g.cell l k := by
        intro l hl hc
        apply p4 _ _ hk
        intro x hx hcx he
        simp only [ends, Bool.false_eq_true, if_false, Prod.mk.injEq] at he
        rw [he.2, hck] at hcx; cases hcx
      by_cases h1 : b = k ∧ inC a = true
      · obtain ⟨rfl, hca⟩ := h1
        rw [if_pos (by simp [owner, hca, hck])]
        have := q3 a ha hca
        simp only [ends, if_true] at this
        rw [this]
        simp only [passNew, hca, hck, if_true, Bool.false_eq_true, if_false]
        apply orDep_congr
        intro l hl hc
        unfold kinds; rw [hcol l hl hc]
      · have hq : kinds g2 a b = kinds g1 a b := by
          unfold kinds; rw [q4 a b hb]
          intro l hl hc he; simp only [ends, if_true, Prod.mk.injEq] at he
          exact h1 ⟨he.2.symm, by rw [← he.1]; exact hc⟩
        rw [hq]
        by_cases h2 : a = k ∧ inC b = true
        · obtain ⟨rfl, hcb⟩ := h2
          rw [if_pos (by simp [owner, hck])]
          have := p3 b hb hcb
          simp only [ends, Bool.false_eq_true, if_false] at this
          rw [this]
          simp only [passNew, hcb, hck, if_true, Bool.false_eq_true, if_false]
        · have hp : kinds g1 a b = kinds g a b := by
            unfold kinds; rw [p4 a b hb]
            intro l hl hc he; simp only [ends, Bool.false_eq_true, if_false, Prod.mk.injEq] at he
            exact h2 ⟨he.1.symm, by rw [← he.2]; exact hc⟩
          rw [hp]
          split
          · rename_i h3
            unfold owner at h3
            split at h3
            · rename_i h4; exact absurd ⟨h3, h4.1⟩ h1
            · subst h3
              have : inC b = false := by
                cases hb' : inC b with
                | false => rfl
                | true => exact absurd ⟨rfl, hb'⟩ h2
              simp [passNew, hck, this]
          · rfl
  | true =>
    rw [if_neg (by simp)]
    have fin : ∀ g' (acc : Dep × Cond) (keep : Nat → Bool), GW g' → Shape g g' →
        (∀ l ∈ List.range g.n, inC l = true → (keep l = true → Covered acc (g.cell k l) (g'.cell k l)) ∧ (keep l = false → g'.cell k l = [])) →
        (∀ x y, y < g.n → (∀ l ∈ List.range g.n, inC l = true → (k, l) ≠ (x, y)) → g'.cell x y = g.cell x y) →
        (∀ b, inC b = true → (if keep b = true then acc.1 else 0) = passNew (augKeep dir up) inC g.n (kinds g) k b) →
        GW g' ∧ Shape g g' ∧ Grows inC g g' ∧ ∀ a b, a < g.n → b < g.n → kinds g' a b =
          if owner inC a b = k then passNew (augKeep dir up) inC g.n (kinds g) a b else kinds g a b := by
      intro g' acc keep p1 p2 p3 p4 hv
      have oth : ∀ a b, b < g.n → ¬ (a = k ∧ inC b = true) → g'.cell a b = g.cell a b := by
        intro a b hb hne
        apply p4 a b hb
        intro l hl hc he
        simp only [Prod.mk.injEq] at he
        exact hne ⟨he.1.symm, by rw [← he.2]; exact hc⟩
      refine ⟨p1, p2, ?_, ?_⟩
      · intro a b ha hb
        refine ⟨fun h σ => ?_, fun h1 h2 => ?_⟩
        · rw [oth a b hb]; exact Le.refl _
          rintro ⟨rfl, hcb⟩; exact h ⟨hck, hcb⟩
        · rw [oth a b hb]
          rintro ⟨rfl, hcb⟩; rw [h2] at hcb; cases hcb
      · intro a b ha hb
        by_cases h1 : a = k ∧ inC b = true
        · obtain ⟨rfl, hcb⟩ := h1
          rw [if_pos (by simp [owner, hcb]), ← hv b hcb]
          obtain ⟨c1, c2⟩ := p3 b (List.mem_range.2 hb) hcb
          cases hkb : keep b with
          | true => rw [if_pos rfl, kinds, (c1 hkb).kind]
          | false => rw [if_neg (by simp), kinds, c2 hkb]; rfl
        · rw [kinds, oth a b hb h1]
          split
          · rename_i h3
            unfold owner at h3
            split at h3
            · rename_i h4; subst h3; rw [hck] at h4; exact absurd h4.2 (by simp)
            · rename_i h4; subst h3
              have : inC b = false := by
                cases hb' : inC b with
                | false => rfl
                | true => exact absurd ⟨rfl, hb'⟩ h1
              exact absurd ⟨hck, this⟩ h4
          · rfl
    by_cases hu : (if dir = true then up k else !up k) = true
    · have hu' : up k = dir := by cases dir <;> simpa using hu
      rw [if_pos hu]
      simp only
      obtain ⟨g', e1, p1, p2, p3, p4⟩ := inEdges_spec (inC := inC) (k := k) (a := orEdges inC (fun l => g.cell k l) (List.range g.n))
        (keep := fun l => (orEdges inC (fun l => g.cell k l) (List.range g.n)).1 != 0 && (if dir = true then !up l else !(!up l)))
        (by intro l hl; simp only [Bool.and_eq_true, bne_iff_ne] at hl; exact hl.1) (List.range g.n) w hk (fun l hl => List.mem_range.1 hl)
        List.nodup_range (fun l hl hc _ => orEdges_dom inC (fun l => g.cell k l) _ hl hc)
      refine ⟨g', e1, fin g' _ _ p1 p2 p3 p4 ?_⟩
      intro b hcb
      have hb : ∀ d : Dep, (if ((d != 0 && (if dir = true then !up b else !(!up b))) = true) then d else 0) =
          if up b = !dir then d else 0 := by
        intro d
        by_cases hd : d = 0
        · subst hd; simp
        · cases dir <;> cases up b <;> simp [bne, hd] <;> exact fun h => absurd h hd
      rw [hb, orEdges_kind]
      simp only [passNew, hck, hcb, if_true, augKeep, hu', true_and]
      rfl
    · have hu' : up k = !dir := by cases dir <;> simpa using hu
      rw [if_neg hu]
      obtain ⟨g', e1, p1, p2, p3, p4⟩ := inEdges_spec (inC := inC) (k := k) (a := ((0 : Dep), (⟨0, 0⟩ : Cond)))
        (keep := fun _ => false) (by simp) (List.range g.n) w hk (fun l hl => List.mem_range.1 hl) List.nodup_range (by simp)
      refine ⟨g', e1, fin g' _ _ p1 p2 p3 p4 ?_⟩
      intro b hcb
      simp only [passNew, hck, hcb, if_true, augKeep, hu', Bool.false_eq_true, if_false]
      cases dir <;> simp

/-- some rows are settled -/
def Settled (keep : Nat → Nat → Prop) [DecidableRel keep] (inC : Nat → Bool) (n : Nat) (M0 M : Nat → Nat → Dep) (done : Nat → Prop) : Prop :=
  ∀ a b, a < n → b < n → (done (owner inC a b) → M a b = passNew keep inC n M0 a b) ∧ (¬ done (owner inC a b) → M a b = M0 a b)

theorem Settled.step {keep : Nat → Nat → Prop} [DecidableRel keep] {inC : Nat → Bool} {n k : Nat} {M0 M M1 : Nat → Nat → Dep} {done : Nat → Prop}
    (h : Settled keep inC n M0 M done) (hd : ¬ done k)
    (h1 : ∀ a b, a < n → b < n → M1 a b = if owner inC a b = k then passNew keep inC n M a b else M a b) :
    Settled keep inC n M0 M1 (fun x => done x ∨ x = k) := by
  have same : ∀ a b, a < n → b < n → owner inC a b = k → passNew keep inC n M a b = passNew keep inC n M0 a b := by
    intro a b ha hb ho
    have unread : ∀ x y, x < n → y < n → owner inC x y = k → M x y = M0 x y :=
      fun x y hx hy hxy => (h x y hx hy).2 (by rw [hxy]; exact hd)
    unfold passNew
    cases hca : inC a with
    | true =>
      cases hcb : inC b with
      | true =>
        have hak : a = k := by simpa [owner, hcb] using ho
        subst hak
        simp only [if_true]
        rw [orDep_congr (g := fun l => M0 a l)]
        intro l hln hcl
        exact unread a l ha hln (by simp [owner, hcl])
      | false =>
        have hbk : b = k := by simpa [owner, hca, hcb] using ho
        subst hbk
        simp only [if_true, Bool.false_eq_true, if_false]
        apply orDep_congr
        intro l hln hcl
        exact unread l b hln hb (by simp [owner, hcl, hcb])
    | false =>
      have hak : a = k := by simpa [owner, hca] using ho
      subst hak
      cases hcb : inC b with
      | true =>
        simp only [if_true, Bool.false_eq_true, if_false]
        apply orDep_congr
        intro l hln hcl
        exact unread a l ha hln (by simp [owner, hca])
      | false =>
        simp only [Bool.false_eq_true, if_false]
        exact unread a b ha hb ho
  intro a b ha hb
  rw [h1 a b ha hb]
  by_cases ho : owner inC a b = k
  · rw [if_pos ho, same a b ha hb ho]
    exact ⟨fun _ => rfl, fun hn => absurd (.inr ho) hn⟩
  · rw [if_neg ho]
    exact ⟨fun hd => (h a b ha hb).1 (hd.resolve_right ho), fun hn => (h a b ha hb).2 (fun hd => hn (.inl hd))⟩

theorem Grows.trans {inC : Nat → Bool} {g h k : Aug} (a : Grows inC g h) (b : Grows inC h k) (hn : h.n = g.n) : Grows inC g k := by
  intro x y hx hy
  obtain ⟨a1, a2⟩ := a x y hx hy
  obtain ⟨b1, b2⟩ := b x y (by omega) (by omega)
  exact ⟨fun h σ => (a1 h σ).trans' (b1 h σ), fun h1 h2 => (b2 h1 h2).trans (a2 h1 h2)⟩

theorem Grows.refl (inC : Nat → Bool) (g : Aug) : Grows inC g g := fun _ _ _ _ => ⟨fun _ _ => Le.refl _, fun _ _ => rfl⟩

theorem augBreakRows_spec {dir : Bool} {inC up : Nat → Bool} (ks : List Nat) {g0 g : Aug} (hks : ∀ k ∈ ks, k < g.n) (hnd : ks.Nodup) (w : GW g)
    (done : Nat → Prop) (hdis : ∀ k ∈ ks, ¬ done k) (h : Settled (augKeep dir up) inC g.n (kinds g0) (kinds g) done) :
    ∃ g', augBreakRows dir inC up ks g = .ok g' ∧ GW g' ∧ Shape g g' ∧ Grows inC g g' ∧
      Settled (augKeep dir up) inC g.n (kinds g0) (kinds g') (fun x => done x ∨ x ∈ ks) := by
  induction ks generalizing g done with
  | nil => exact ⟨g, rfl, w, Shape.refl g, Grows.refl _ _, by simpa using h⟩
  | cons k ks ih =>
    rw [List.nodup_cons] at hnd
    obtain ⟨g1, e1, p1, p2, p3, p4⟩ := augBreakRow_spec (dir := dir) (inC := inC) (up := up) w (hks k (by simp))
    have h1 := h.step (hdis k (by simp)) p4
    obtain ⟨g', e2, q1, q2, q3, q4⟩ := ih (fun x hx => by rw [p2.n]; exact hks x (by simp [hx])) hnd.2 p1 (fun x => done x ∨ x = k)
      (by
        rintro x hx (hd | rfl)
        · exact hdis x (by simp [hx]) hd
        · exact hnd.1 hx) (by rw [p2.n]; exact h1)
    refine ⟨g', by rw [augBreakRows, e1]; exact e2, q1, p2.trans q2, p3.trans q3 p2.n, ?_⟩
    rw [p2.n] at q4
    have : (fun x => (done x ∨ x = k) ∨ x ∈ ks) = (fun x => done x ∨ x ∈ k :: ks) := by
      funext x; simp [or_assoc]
    rw [this] at q4; exact q4

/-- the pass for one class of an augmented graph -/
theorem augBreak_spec (dir : Bool) (inC up : Nat → Bool) {g : Aug} (w : GW g) :
    ∃ g', augBreak dir inC up g = .ok g' ∧ GW g' ∧ Shape g g' ∧ Grows inC g g' ∧ ∀ a b, a < g.n → b < g.n →
      kinds g' a b = passNew (augKeep dir (upOf g.attrs up)) inC g.n (kinds g) a b := by
  obtain ⟨g', e1, p1, p2, p3, p4⟩ := augBreakRows_spec (dir := dir) (inC := inC) (up := upOf g.attrs up) (List.range g.n) (g0 := g)
    (fun k hk => List.mem_range.1 hk) List.nodup_range w (fun _ => False) (by simp) (fun a b _ _ => ⟨fun h => h.elim, fun _ => rfl⟩)
  refine ⟨g', e1, p1, p2, p3, fun a b ha hb => (p4 a b ha hb).1 (.inr (List.mem_range.2 ?_))⟩
  unfold owner; split <;> assumption

/-! ## The whole state -/

/-- the classes of a graph that starts at `b` -/
def classes (P : Par) (b : Nat) (cs : List Cyc) : List (Nat → Bool) := cs.map fun c => inClass P c.root b

/-- what the pass makes of a phylum -/
structure PhyPass (dir : Bool) (up : Nat → Bool) (cl : List (Nat → Bool)) (p p' : Phy) : Prop where
  n : p'.n = p.n
  attrs : p'.attrs = p.attrs
  isFunc : p'.isFunc = p.isFunc
  wf : PWf p'
  cells : Passed (phyKeep dir (upOf p.attrs up)) p.n (mget p.n p.m) cl (mget p.n p'.m)

/-- what the pass makes of an augmented graph -/
structure AugPass (dir : Bool) (up : Nat → Bool) (cl : List (Nat → Bool)) (g g' : Aug) : Prop where
  shape : Shape g g'
  wf : GW g'
  cells : Passed (augKeep dir (upOf g.attrs up)) g.n (kinds g) cl (kinds g')
  grows : ∀ a b, a < g.n → b < g.n → (∀ c ∈ cl, ¬ (c a = true ∧ c b = true)) → ∀ σ, Le (kindAt σ (g.cell a b)) (kindAt σ (g'.cell a b))
  out : ∀ a b, a < g.n → b < g.n → (∀ c ∈ cl, c a = false ∧ c b = false) → g'.cell a b = g.cell a b

theorem breakPhys_spec {dir : Bool} {P : Par} {up : Nat → Bool} {root : Nat} (ps : List Phy) (bs : List Nat) (hlen : ps.length = bs.length) :
    (breakPhys dir P up root ps bs).length = ps.length ∧ ∀ (i : Nat) p b, ps[i]? = some p → bs[i]? = some b →
      (breakPhys dir P up root ps bs)[i]? = some (phyBreak dir (inClass P root b) up p) := by
  induction ps generalizing bs with
  | nil => cases bs <;> simp [breakPhys]
  | cons p ps ih =>
    cases bs with
    | nil => simp at hlen
    | cons b bs =>
      obtain ⟨h1, h2⟩ := ih bs (by simpa using hlen)
      refine ⟨by simp [breakPhys, h1], ?_⟩
      intro i q c hq hc
      cases i with
      | zero => simp at hq hc; subst hq hc; simp [breakPhys]
      | succ i => simp at hq hc; simp [breakPhys, h2 i q c hq hc]

theorem breakAugs_spec {dir : Bool} {P : Par} {up : Nat → Bool} {root : Nat} (gs : List Aug) (bs : List Nat) (hlen : gs.length = bs.length)
    (w : ∀ g ∈ gs, GW g) :
    ∃ gs', breakAugs dir P up root gs bs = .ok gs' ∧ gs'.length = gs.length ∧ ∀ (i : Nat) g b, gs[i]? = some g → bs[i]? = some b →
      ∃ g', gs'[i]? = some g' ∧ augBreak dir (inClass P root b) up g = .ok g' := by
  induction gs generalizing bs with
  | nil => cases bs <;> exact ⟨[], rfl, rfl, by simp⟩
  | cons g gs ih =>
    cases bs with
    | nil => simp at hlen
    | cons b bs =>
      obtain ⟨gs', e1, h1, h2⟩ := ih bs (by simpa using hlen) (fun x hx => w x (by simp [hx]))
      obtain ⟨g', e2, _⟩ := augBreak_spec dir (inClass P root b) up (w g (by simp))
      refine ⟨g' :: gs', by rw [breakAugs, e2, Res.ok_bind, e1]; rfl, by simp [h1], ?_⟩
      intro i q c hq hc
      cases i with
      | zero => simp at hq hc; subst hq hc; exact ⟨g', by simp, e2⟩
      | succ i => simp at hq hc; simpa using h2 i q c hq hc

/-- what the pass has made of a state after the cycles `cs` -/
structure StPass (dir : Bool) (P : Par) (up : Nat → Bool) (cs : List Cyc) (s s' : State) : Prop where
  plen : s'.phys.length = s.phys.length
  alen : s'.augs.length = s.augs.length
  phy : ∀ (i : Nat) p b, s.phys[i]? = some p → (layout s).phy[i]? = some b → ∃ p', s'.phys[i]? = some p' ∧ PhyPass dir up (classes P b cs) p p'
  aug : ∀ (i : Nat) g b, s.augs[i]? = some g → (layout s).aug[i]? = some b → ∃ g', s'.augs[i]? = some g' ∧ AugPass dir up (classes P b cs) g g'

theorem StPass.layout {dir : Bool} {P : Par} {up : Nat → Bool} {cs : List Cyc} {s s' : State} (h : StPass dir P up cs s s') :
    layout s' = layout s := by
  have h1 : s'.phys.map (·.n) = s.phys.map (·.n) := by
    apply List.ext_getElem?
    intro i
    rw [List.getElem?_map, List.getElem?_map]
    cases hp : s.phys[i]? with
    | none => rw [List.getElem?_eq_none_iff] at hp; rw [List.getElem?_eq_none_iff.2 (by rw [h.plen]; exact hp)]
    | some p =>
      have hi := (List.getElem?_eq_some_iff.1 hp).1
      have hb : i < (Cycle.layout s).phy.length := by simp only [Cycle.layout, starts_length, List.length_map]; exact hi
      obtain ⟨p', e, pp⟩ := h.phy i p _ hp (List.getElem?_eq_getElem hb)
      rw [e]; simp [pp.n]
  have h2 : s'.augs.map (·.n) = s.augs.map (·.n) := by
    apply List.ext_getElem?
    intro i
    rw [List.getElem?_map, List.getElem?_map]
    cases hp : s.augs[i]? with
    | none => rw [List.getElem?_eq_none_iff] at hp; rw [List.getElem?_eq_none_iff.2 (by rw [h.alen]; exact hp)]
    | some p =>
      have hi := (List.getElem?_eq_some_iff.1 hp).1
      have hb : i < (Cycle.layout s).aug.length := by simp only [Cycle.layout, starts_length, List.length_map]; exact hi
      obtain ⟨p', e, pp⟩ := h.aug i p _ hp (List.getElem?_eq_getElem hb)
      rw [e]; simp [pp.shape.n]
  unfold Cycle.layout
  rw [h1, h2]

theorem addUpDown_spec {dir : Bool} {P : Par} {up : Nat → Bool} (cs : List Cyc) {s0 s : State} (done : List Cyc)
    (hnd : ((done ++ cs).map (·.root)).Nodup) (hw : ∀ g ∈ s.augs, GW g) (hp : ∀ p ∈ s.phys, PWf p) (h : StPass dir P up done s0 s) :
    ∃ s', addUpDown dir P up cs s = .ok s' ∧ StPass dir P up (done ++ cs) s0 s' ∧ (∀ g ∈ s'.augs, GW g) ∧ (∀ p ∈ s'.phys, PWf p) := by
  induction cs generalizing s done with
  | nil => exact ⟨s, rfl, by simpa using h, hw, hp⟩
  | cons c cs ih =>
    have hl := h.layout
    have disj : ∀ b, ∀ d ∈ classes P b done, ∀ x, ¬ (d x = true ∧ inClass P c.root b x = true) := by
      rintro b d hd x ⟨h1, h2⟩
      obtain ⟨y, hy, rfl⟩ := List.mem_map.1 hd
      simp only [inClass, beq_iff_eq] at h1 h2
      rw [h1] at h2
      simp only [Option.some.injEq] at h2
      rw [List.map_append, List.nodup_append] at hnd
      exact hnd.2.2 _ (List.mem_map.2 ⟨y, hy, rfl⟩) c.root (by simp) h2
    obtain ⟨gs', e1, l1, a1⟩ := breakAugs_spec (dir := dir) (P := P) (up := up) (root := c.root) s.augs (layout s).aug
      (by simp [layout, starts_length]) hw
    obtain ⟨l2, a2⟩ := breakPhys_spec (dir := dir) (P := P) (up := up) (root := c.root) s.phys (layout s).phy
      (by simp [layout, starts_length])
    have hs : StPass dir P up (done ++ [c]) s0 ⟨gs', breakPhys dir P up c.root s.phys (layout s).phy⟩ := by
      refine ⟨by rw [← h.plen]; exact l2, by rw [← h.alen]; exact l1, ?_, ?_⟩
      · intro i p b hpi hb
        obtain ⟨p1, f1, pp⟩ := h.phy i p b hpi hb
        refine ⟨_, a2 i p1 b f1 (by rw [hl]; exact hb), ?_⟩
        obtain ⟨k1, k2, k3, k4, k5⟩ := phyBreak_spec dir (inClass P c.root b) up p1 pp.wf
        refine ⟨k1.trans pp.n, k2.trans pp.attrs, k3.trans pp.isFunc, k4, ?_⟩
        have := pp.cells.step (c := inClass P c.root b) (disj b) (M'' := mget p.n (phyBreak dir (inClass P c.root b) up p1).m)
          (by rw [pp.n, pp.attrs] at k5; exact k5)
        simpa [classes] using this
      · intro i g b hgi hb
        obtain ⟨g1, f1, pp⟩ := h.aug i g b hgi hb
        obtain ⟨g', f2, e2⟩ := a1 i g1 b f1 (by rw [hl]; exact hb)
        refine ⟨g', f2, ?_⟩
        obtain ⟨g'', e3, k1, k2, k3, k4⟩ := augBreak_spec dir (inClass P c.root b) up pp.wf
        rw [e2] at e3; cases e3
        rw [pp.shape.n, pp.shape.attrs] at k4
        have cells := pp.cells.step (c := inClass P c.root b) (disj b) (M'' := kinds g') k4
        refine ⟨pp.shape.trans k2, k1, by simpa [classes] using cells, ?_, ?_⟩
        · intro x y hx hy hc σ
          refine (pp.grows x y hx hy (fun d hd => hc d ?_) σ).trans' ((k3 x y (by rw [pp.shape.n]; exact hx) (by rw [pp.shape.n]; exact hy)).1 (hc _ ?_) σ)
          · simp only [classes, List.map_append, List.mem_append]; exact .inl hd
          · simp [classes]
        · intro x y hx hy hc
          obtain ⟨c1, c2⟩ := hc (inClass P c.root b) (by simp [classes])
          rw [(k3 x y (by rw [pp.shape.n]; exact hx) (by rw [pp.shape.n]; exact hy)).2 c1 c2]
          exact pp.out x y hx hy (fun d hd => hc d (by simp only [classes, List.map_append, List.mem_append]; exact .inl hd))
    have hw' : ∀ g ∈ gs', GW g := by
      intro g hg
      obtain ⟨i, hi⟩ := List.mem_iff_getElem?.1 hg
      have hlt : i < s0.augs.length := by rw [← h.alen, ← l1]; exact (List.getElem?_eq_some_iff.1 hi).1
      have hb : i < (layout s0).aug.length := by simp only [layout, starts_length, List.length_map]; exact hlt
      obtain ⟨g', f, pp⟩ := hs.aug i _ _ (List.getElem?_eq_getElem hlt) (List.getElem?_eq_getElem hb)
      simp only at f; rw [hi] at f; cases f; exact pp.wf
    have hp' : ∀ p ∈ breakPhys dir P up c.root s.phys (layout s).phy, PWf p := by
      intro p hpm
      obtain ⟨i, hi⟩ := List.mem_iff_getElem?.1 hpm
      have hlt : i < s0.phys.length := by rw [← h.plen, ← l2]; exact (List.getElem?_eq_some_iff.1 hi).1
      have hb : i < (layout s0).phy.length := by simp only [layout, starts_length, List.length_map]; exact hlt
      obtain ⟨g', f, pp⟩ := hs.phy i _ _ (List.getElem?_eq_getElem hlt) (List.getElem?_eq_getElem hb)
      simp only at f; rw [hi] at f; cases f; exact pp.wf
    obtain ⟨s', e2, r1, r2, r3⟩ := ih (done ++ [c]) (by simpa using hnd) hw' hp' hs
    refine ⟨s', ?_, by simpa using r1, r2, r3⟩
    rw [addUpDown, e1, Res.ok_bind]; exact e2

theorem StPass.init {dir : Bool} {P : Par} {up : Nat → Bool} {s : State} (hw : ∀ g ∈ s.augs, GW g) (hp : ∀ p ∈ s.phys, PWf p) :
    StPass dir P up [] s s := by
  refine ⟨rfl, rfl, ?_, ?_⟩
  · intro i p b hpi _
    exact ⟨p, hpi, rfl, rfl, rfl, hp p (List.mem_of_getElem? hpi), Passed.init _ _ _⟩
  · intro i g b hgi _
    exact ⟨g, hgi, Shape.refl g, hw g (List.mem_of_getElem? hgi), Passed.init _ _ _, fun _ _ _ _ _ _ => Le.refl _, fun _ _ _ _ _ => rfl⟩

end Aps.Cycle

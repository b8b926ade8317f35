import Verif.Proofs.DncPaths
/-!
# C16–C23 — conditions, dependency kinds, dependency graphs and the DNC iteration
(analyze/aps-cond.c, analyze/aps-dnc.c)

Specification vocabulary (defined in `Proofs/Cond`, `Proofs/Dep`, `Proofs/DncPaths`):
* an assignment `σ : Nat → Bool` says which way every conditional goes; `Sat σ c`: it satisfies `c`;
* `Le a b`: every bit of the kind `a` is in `b`;
* `kindAt σ es`: join of the kinds of the edges of `es` whose condition `σ` satisfies;
* `Built n attrs links g`: `g` is the empty graph after any sequence of `add_edge_to_graph` calls;
* `Path g σ i j k`: a path of edges of `g` enabled under `σ`, combining to kind `k`.
-/
namespace Aps.Props
open Aps.Dnc

/-! ## C16 -/

/-- C16: read as sets of assignments, `cond_compare` is exact on satisfiable conditions. -/
theorem C16_compare (c1 c2 : Cond) (h1 : ∃ σ, Sat σ c1) (h2 : ∃ σ, Sat σ c2) :
    (condCompare c1 c2 = .eq ↔ ∀ σ, Sat σ c1 ↔ Sat σ c2) ∧
    (condCompare c1 c2 = .lt ↔ (∀ σ, Sat σ c1 → Sat σ c2) ∧ ∃ σ, Sat σ c2 ∧ ¬ Sat σ c1) ∧
    (condCompare c1 c2 = .gt ↔ (∀ σ, Sat σ c2 → Sat σ c1) ∧ ∃ σ, Sat σ c1 ∧ ¬ Sat σ c2) ∧
    (condCompare c1 c2 = .comp ↔
      (¬ ∃ σ, Sat σ c1 ∧ Sat σ c2) ∧ ∃ m : Cond, ∀ σ, Sat σ m ↔ (Sat σ c1 ∨ Sat σ c2)) := by
  obtain ⟨σ1, s1⟩ := h1
  obtain ⟨σ2, s2⟩ := h2
  have o1 := ok_of_sat s1
  have o2 := ok_of_sat s2
  obtain ⟨e, l, g, c⟩ := condCompare_spec c1 c2
  have key : ∀ {a b : Cond}, a.ok → b.ok → ((a.sub b ∧ b ≠ a) ↔ (∀ σ, Sat σ b → Sat σ a) ∧ ∃ σ, Sat σ a ∧ ¬ Sat σ b) := by
    intro a b ha hb
    rw [sat_sub_iff hb]
    apply and_congr_right
    intro hab
    constructor
    · intro hne
      by_contra hc
      push Not at hc
      exact hne (Cond.sub_antisymm ((sat_sub_iff ha).1 hc) hab)
    · rintro ⟨σ, x, y⟩ rfl
      exact y x
  refine ⟨?_, ?_, ?_, ?_⟩
  · rw [e]
    constructor
    · rintro rfl σ; exact Iff.rfl
    · intro h
      exact Cond.sub_antisymm ((sat_sub_iff o2).1 fun σ => (h σ).2) ((sat_sub_iff o1).1 fun σ => (h σ).1)
  · rw [l]; exact key o2 o1
  · rw [g]
    have := key o1 o2
    rw [← this]
    exact and_congr_right fun _ => ne_comm
  · rw [c]; exact comp_semantic o1 o2

/-- C16: the condition `add_edge` merges complementary conditions into denotes their union. -/
theorem C16_merge (c1 c2 : Cond) (h1 : ∃ σ, Sat σ c1) (h2 : ∃ σ, Sat σ c2) (h : condCompare c1 c2 = .comp) :
    ∃ m, mergeCond c1 c2 = some m ∧ ∀ σ, Sat σ m ↔ (Sat σ c1 ∨ Sat σ c2) := by
  obtain ⟨σ1, s1⟩ := h1
  obtain ⟨σ2, s2⟩ := h2
  rcases (condCompare_spec c1 c2).2.2.2.1 h with ⟨i, h⟩ | ⟨i, h⟩
  · obtain ⟨m, e, _, _, _, _, hm⟩ := mergeCond_spec h (ok_of_sat s1)
    exact ⟨m, e, hm⟩
  · obtain ⟨m, _, e, _, _, _, hm⟩ := mergeCond_spec h (ok_of_sat s2)
    exact ⟨m, e, fun σ => (hm σ).trans or_comm⟩

/-- the hypotheses are met: `+0 +3` and `+0 -3` are complementary and merge to `+0` -/
example : (∃ σ, Sat σ ⟨9, 0⟩) ∧ (∃ σ, Sat σ ⟨1, 8⟩) ∧ condCompare ⟨9, 0⟩ ⟨1, 8⟩ = .comp ∧
    mergeCond ⟨9, 0⟩ ⟨1, 8⟩ = some ⟨1, 0⟩ ∧ condCompare ⟨9, 0⟩ ⟨1, 0⟩ = .lt :=
  ⟨exists_sat (by unfold Cond.ok; decide), exists_sat (by unfold Cond.ok; decide), by decide +kernel, by decide +kernel,
    by decide +kernel⟩

/-! ## C17 -/

/-- C17: `dependency_join` is the least upper bound of the order `AT_MOST`. -/
theorem C17_join (a b c : Dep) :
    join a b = join b a ∧ join (join a b) c = join a (join b c) ∧ join a a = a ∧ join a 0 = a ∧
    (atMost a (join a b) = true) ∧ (atMost a c = true → atMost b c = true → atMost (join a b) c = true) ∧
    (atMost a b = true ↔ join a b = b) := by
  refine ⟨BitVec.or_comm a b, BitVec.or_assoc a b c, BitVec.or_self, BitVec.or_zero, ?_, ?_, ?_⟩
  · rw [atMost_iff]; exact Le.join_left a b
  · rw [atMost_iff, atMost_iff, atMost_iff]; exact Le.join_le
  · rw [atMost_iff]
    constructor
    · intro h; exact Le.antisymm (Le.join_le h (Le.refl _)) (Le.join_right _ _)
    · intro h; rw [← h]; exact Le.join_left _ _

/-- C17: `dependency_trans` is monotone, associative and commutative, distributes over joins on both sides, is
absorbed by no dependency and never loses a dependency. -/
theorem C17_trans (a b c a' b' : Dep) :
    trans (trans a b) c = trans a (trans b c) ∧ trans a b = trans b a ∧
    trans (join a b) c = join (trans a c) (trans b c) ∧ trans a (join b c) = join (trans a b) (trans a c) ∧
    (atMost a a' = true → atMost b b' = true → atMost (trans a b) (trans a' b') = true) ∧
    (trans a b = 0 ↔ a = 0 ∨ b = 0) :=
  ⟨trans_assoc a b c, trans_comm a b, trans_join_left a b c, trans_join_right a b c,
    fun h1 h2 => atMost_iff.2 (trans_mono (atMost_iff.1 h1) (atMost_iff.1 h2)), trans_zero_iff⟩

/-- C17: what a combination means: something always remains, one non-fiber part makes it non-fiber, carrying and
simple need both parts, and a combination is never direct. -/
theorem C17_trans_meaning (a b : Dep) (ha : a ≠ 0) (hb : b ≠ 0) :
    atMost SOME (trans a b) = true ∧
    (atMost NOT_JUST_FIBER (trans a b) = true ↔ atMost NOT_JUST_FIBER a = true ∨ atMost NOT_JUST_FIBER b = true) ∧
    (atMost MAYBE_CARRYING (trans a b) = true ↔ atMost MAYBE_CARRYING a = true ∧ atMost MAYBE_CARRYING b = true) ∧
    (atMost MAYBE_SIMPLE (trans a b) = true ↔ atMost MAYBE_SIMPLE a = true ∧ atMost MAYBE_SIMPLE b = true) ∧
    atMost MAYBE_DIRECT (trans a b) = false ∧ indirect (trans a b) = trans a b := by
  have h : ∀ (k : Dep) (n : Nat), (∀ i, k.getLsbD i = true ↔ i = n) → ∀ x, (atMost k x = true ↔ x.getLsbD n = true) := by
    intro k n hk x
    rw [atMost_iff]
    constructor
    · intro h; exact h n ((hk n).2 rfl)
    · intro h i hi; rw [(hk i).1 hi]; exact h
  refine ⟨?_, ?_, ?_, ?_, ?_, indirect_trans a b⟩
  · rw [h SOME 0 (fun _ => bit1), trans_bit]; exact ⟨ha, hb, .inl rfl⟩
  · rw [h _ 1 (fun _ => bit2), h _ 1 (fun _ => bit2), h _ 1 (fun _ => bit2), trans_bit]
    have ha' : ¬ a = 0#32 := ha
    have hb' : ¬ b = 0#32 := hb
    simp [ha', hb']
  · rw [h _ 2 (fun _ => bit4), h _ 2 (fun _ => bit4), h _ 2 (fun _ => bit4), trans_bit]
    have ha' : ¬ a = 0#32 := ha
    have hb' : ¬ b = 0#32 := hb
    simp [ha', hb']
  · rw [h _ 4 (fun _ => bit16), h _ 4 (fun _ => bit16), h _ 4 (fun _ => bit16), trans_bit]
    have ha' : ¬ a = 0#32 := ha
    have hb' : ¬ b = 0#32 := hb
    simp [ha', hb']
  · have := h _ 3 (fun _ => bit8) (trans a b)
    rw [trans_bit] at this
    simp at this
    exact this

/-- C17: `dependency_indirect` only drops directness, and dropping it before joining or after is the same. -/
theorem C17_indirect (a b : Dep) : indirect (join a b) = join (indirect a) (indirect b) ∧
    indirect (indirect a) = indirect a ∧ atMost (indirect a) a = true ∧ join (indirect a) (a &&& MAYBE_DIRECT) = a := by
  refine ⟨?_, ?_, atMost_iff.2 (indirect_le a), ?_⟩
  · apply bit_ext; intro i; rw [indirect_bit, join_bit, join_bit, indirect_bit, indirect_bit, or_and_right]
  · apply bit_ext; intro i; rw [indirect_bit, indirect_bit]; tauto
  · apply bit_ext; intro i
    rw [join_bit, indirect_bit, BitVec.getLsbD_and, Bool.and_eq_true, bit8]; tauto

example : trans (SOME ||| MAYBE_CARRYING) (SOME ||| NOT_JUST_FIBER ||| MAYBE_CARRYING ||| MAYBE_DIRECT) = SOME ||| NOT_JUST_FIBER ||| MAYBE_CARRYING := by
  decide +kernel

/-! ## C18 -/

/-- C18: adding an edge to any graph built by adding edges succeeds and changes exactly what it says: under the
assignments that satisfy its condition the kind between its ends is joined with the new kind; nothing else changes. -/
theorem C18_add_edge {n : Nat} {attrs : List Nat} {links : List (Nat × Nat)} {g : Aug} (hg : Dnc.Built n attrs links g)
    (i j : Nat) (hi : i < n) (hj : j < n) (c : Cond) (hc : ∃ σ, Sat σ c) (k : Dep) (hk : k ≠ 0) :
    ∃ g', addEdgeToGraph i j c k g = .ok g' ∧ g'.n = n ∧
      (∀ σ, Sat σ c → kindAt σ (g'.cell i j) = join (kindAt σ (g.cell i j)) k) ∧
      (∀ σ, ¬ Sat σ c → kindAt σ (g'.cell i j) = kindAt σ (g.cell i j)) ∧
      (∀ σ a b, a < n → b < n → (a, b) ≠ (i, j) → kindAt σ (g'.cell a b) = kindAt σ (g.cell a b)) := by
  obtain ⟨w, _⟩ := built_spec hg
  have hn := (built_n hg).1
  obtain ⟨σ0, s0⟩ := hc
  obtain ⟨g', e, w', s, _, kd, _⟩ := addEdgeToGraph_spec w (hn ▸ hi) (hn ▸ hj) (ok_of_sat s0) hk
  have kd' := fun σ a b (ha : a < n) (hb : b < n) => kd σ a b (hn ▸ ha) (hn ▸ hb)
  refine ⟨g', e, by rw [s.n, hn], ?_, ?_, ?_⟩
  · intro σ hs; apply bit_ext; intro b; rw [kd' σ i j hi hj b, join_bit]; simp [hs]
  · intro σ hs; apply bit_ext; intro b; rw [kd' σ i j hi hj b]; simp [hs]
  · intro σ a b ha hb hne; apply bit_ext; intro t; rw [kd' σ a b ha hb t]
    constructor
    · rintro (h | ⟨rfl, rfl, _⟩)
      · exact h
      · exact absurd rfl hne
    · exact .inl

/-- C18: the kind and the lower bound of an edge set are exact bounds over all assignments: `edgeset_kind` is the
join of what holds under some assignment; what `edgeset_lowerbound` says holds under every assignment. -/
theorem C18_kind_bounds {n : Nat} {attrs : List Nat} {links : List (Nat × Nat)} {g : Aug} (hg : Dnc.Built n attrs links g)
    (i j : Nat) (hi : i < n) (hj : j < n) :
    (∀ b, (edgesetKind (g.cell i j)).getLsbD b = true ↔ ∃ σ, (kindAt σ (g.cell i j)).getLsbD b = true) ∧
    (∀ σ, Le (edgesetLowerbound (g.cell i j)) (kindAt σ (g.cell i j))) := by
  obtain ⟨w, _⟩ := built_spec hg
  have hn := (built_n hg).1
  constructor
  · intro b
    rw [edgesetKind_bit]
    constructor
    · rintro ⟨e, he, hb⟩
      obtain ⟨σ, hs⟩ := exists_sat (w.ok i j (hn ▸ hi) (hn ▸ hj) e he).2.2.1
      exact ⟨σ, kindAt_bit.2 ⟨e, he, hs, hb⟩⟩
    · rintro ⟨σ, h⟩
      obtain ⟨e, he, _, hb⟩ := kindAt_bit.1 h
      exact ⟨e, he, hb⟩
  · intro σ b hb
    obtain ⟨e, he, hc, hk⟩ := lowerbound_bit.1 hb
    refine kindAt_bit.2 ⟨e, he, ?_, hk⟩
    rw [hc]; intro t; constructor <;> intro h <;> simp at h

/-- four additions: under `+1` kind 1, under `+0` kind 3, and finally under `-0` kind 3 -/
def c18example : Res Aug := do
  let g ← addEdgeToGraph 0 1 ⟨2, 0⟩ 1 (emptyAug 2 [] [])
  let g ← addEdgeToGraph 0 1 ⟨1, 0⟩ 3 g
  addEdgeToGraph 0 1 ⟨0, 1⟩ 3 g

/-- The edges of a set do not stay incomparable: here complementary edges are merged to an unconditional one that
implies an edge which stays in the set. (So incomparability is not part of C18.) -/
theorem C18_incomparable_refuted : ∃ g, c18example = .ok g ∧ Dnc.Built 2 [] [] g ∧
    ∃ a ∈ g.cell 0 1, ∃ b ∈ g.cell 0 1, condCompare a.cond b.cond = .lt ∧ atMost a.kind b.kind = true := by
  refine ⟨_, rfl, ?_, ?_⟩
  · refine .add (g := _) 0 1 ⟨0, 1⟩ 3 (.add (g := _) 0 1 ⟨1, 0⟩ 3 (.add 0 1 ⟨2, 0⟩ 1 .empty
      (by omega) (by omega) (exists_sat (by unfold Cond.ok; decide)) (by decide) rfl) (by omega) (by omega)
      (exists_sat (by unfold Cond.ok; decide)) (by decide) rfl) (by omega) (by omega)
      (exists_sat (by unfold Cond.ok; decide)) (by decide) rfl
  · exact ⟨⟨0, 0, 1, ⟨2, 0⟩, 1⟩, by decide +kernel, ⟨2, 0, 1, ⟨0, 0⟩, 3⟩, by decide +kernel, by decide +kernel, by decide +kernel⟩

/-! ## C19, C20 -/

/-- C19: closing any built augmented graph with its links to any summary graphs ends, for all enough fuel with the
same result, with an empty worklist and transitively closed under every assignment. -/
theorem C19_terminates_closed {n : Nat} {attrs : List Nat} {links : List (Nat × Nat)} {g : Aug} (hg : Dnc.Built n attrs links g)
    (ps : List Phy) (hps : ∀ p ∈ ps, p.m.length = p.n * p.n)
    (hl : ∀ l ∈ links, ∃ p, ps[l.2]? = some p ∧ l.1 + p.n ≤ n ∧ ∀ i, i < p.n → attrs[l.1 + i]? = p.attrs[i]?) :
    ∃ f ch g' ps', (∀ f', f ≤ f' → closeAugmented f' g ps = .ok (ch, g', ps')) ∧ g'.n = n ∧ g'.wl.list = [] ∧
      (∀ σ i j, i < n → j < n → Le (kindAt σ (g.cell i j)) (kindAt σ (g'.cell i j))) ∧
      (∀ σ i k j, i < n → k < n → j < n →
        Le (trans (kindAt σ (g'.cell i k)) (kindAt σ (g'.cell k j))) (kindAt σ (g'.cell i j))) := by
  obtain ⟨hn, ha, hlk⟩ := built_n hg
  have hlo : LinksOk g ps := by
    intro l h
    rw [hlk] at h
    obtain ⟨p, a, b, c⟩ := hl l h
    exact ⟨p, a, by rw [hn]; exact b, by rw [ha]; exact c⟩
  obtain ⟨f, ch, g', ps', e, r, _⟩ := closeAugmented_total g ps (built_inv hg hlo) hps
  refine ⟨f, ch, g', ps', closeAugmented_mono e, by rw [r.mono.n, hn], r.done, ?_, ?_⟩
  · intro σ i j hi hj; exact r.mono.kind (hn ▸ hi) (hn ▸ hj) σ
  · have := closed_of_winv r.inv.wf r.inv.winv r.done
    rw [r.mono.n, hn] at this
    exact this

/-- C19, for every order: taking the edges off the worklist in any order, there is no infinite run, a run can always
go on until the worklist is empty, and then the graph is closed under every assignment. -/
theorem C19_any_order {n : Nat} {attrs : List Nat} {links : List (Nat × Nat)} {g : Aug} (hg : Dnc.Built n attrs links g) :
    Acc (fun a b => Pick b a) g ∧
    ∀ g', Relation.ReflTransGen Pick g g' → (g'.wl.list ≠ [] → ∃ g'', Pick g' g'') ∧
      (g'.wl.list = [] → ∀ σ i k j, i < n → k < n → j < n →
        Le (trans (kindAt σ (g'.cell i k)) (kindAt σ (g'.cell k j))) (kindAt σ (g'.cell i j))) := by
  have w := (built_spec hg).1
  refine ⟨pick_acc g w (built_winv hg), fun g' hr => ?_⟩
  obtain ⟨w', i', m', _⟩ := pick_run hr w (built_winv hg)
  constructor
  · intro hne
    obtain ⟨e, rest, he⟩ := List.exists_cons_of_ne_nil hne
    obtain ⟨g'', e2, _⟩ := pick_spec w' i' (l1 := []) (l2 := rest) (e := e) (by simpa using he)
    exact ⟨g'', .pick (l1 := []) (by simpa using he) e2⟩
  · intro he
    have := closed_of_winv w' i' he
    rw [m'.n, (built_n hg).1] at this
    exact this

/-- C20, for every order: when the worklist is empty, the kind between two instances under an assignment is exactly
the join over the paths of original dependencies enabled under that assignment. So the result does not depend on the order. -/
theorem C20_exact_any_order {n : Nat} {attrs : List Nat} {links : List (Nat × Nat)} {g : Aug} (hg : Dnc.Built n attrs links g)
    (g' : Aug) (hr : Relation.ReflTransGen Pick g g') (he : g'.wl.list = []) (σ : Nat → Bool) (i j : Nat) (hi : i < n) (hj : j < n)
    (b : Nat) : (kindAt σ (g'.cell i j)).getLsbD b = true ↔ ∃ k, Path g σ i j k ∧ k.getLsbD b = true := by
  have hn := (built_n hg).1
  obtain ⟨w', i', m', b'⟩ := pick_run hr (built_spec hg).1 (built_winv hg)
  have hc := closed_of_winv w' i' he
  rw [m'.n] at hc
  exact path_iff m' hc b' σ (hn ▸ hi) (hn ▸ hj) b

/-- C20, for the program's order: the worklist loop ends in exactly the paths of the original graph. -/
theorem C20_exact {n : Nat} {attrs : List Nat} {links : List (Nat × Nat)} {g : Aug} (hg : Dnc.Built n attrs links g) :
    ∃ f g', (∀ f', f ≤ f' → closeWorklist f' g = .ok g') ∧ ∀ σ i j, i < n → j < n → ∀ b,
      ((kindAt σ (g'.cell i j)).getLsbD b = true ↔ ∃ k, Path g σ i j k ∧ k.getLsbD b = true) := by
  have hn := (built_n hg).1
  obtain ⟨f, g', e, w', i', d, m, bd⟩ := closeWorklist_total g (built_spec hg).1 (built_winv hg)
  refine ⟨f, g', closeWorklist_mono e, fun σ i j hi hj b => ?_⟩
  have hc := closed_of_winv w' i' d
  rw [m.n] at hc
  exact path_iff m hc bd σ (hn ▸ hi) (hn ▸ hj) b

/-- C20 with summaries: closing a graph together with its links adds nothing beyond any bound that is itself closed,
contains the summaries at the links, does not depend on conditions there, and whose dependencies at the links are
(indirectly) in the bound for the summaries. -/
theorem C20_nothing_spurious {n : Nat} {attrs : List Nat} {links : List (Nat × Nat)} {g : Aug} (hg : Dnc.Built n attrs links g)
    (ps : List Phy) (hps : ∀ p ∈ ps, p.m.length = p.n * p.n)
    (hl : ∀ l ∈ links, ∃ p, ps[l.2]? = some p ∧ l.1 + p.n ≤ n ∧ ∀ i, i < p.n → attrs[l.1 + i]? = p.attrs[i]?)
    (M : (Nat → Bool) → Nat → Nat → Dep) (N : Nat → Nat → Nat → Dep)
    (hM : ∀ σ i k j, i < n → k < n → j < n → Le (trans (M σ i k) (M σ k j)) (M σ i j))
    (hMN : ∀ l ∈ links, ∀ p, ps[l.2]? = some p → ∀ i j, i < p.n → j < p.n →
      (∀ σ, Le (N l.2 i j) (M σ (l.1 + i) (l.1 + j))) ∧
      (N l.2 i j ≠ 0 → ∀ σ σ', Le (M σ (l.1 + i) (l.1 + j)) (M σ' (l.1 + i) (l.1 + j))) ∧
      (p.isFunc = false → ∀ σ, Le (indirect (M σ (l.1 + i) (l.1 + j))) (N l.2 i j)))
    (hgM : ∀ σ i j, i < n → j < n → Le (kindAt σ (g.cell i j)) (M σ i j))
    (hpN : ∀ (pi : Nat) p, ps[pi]? = some p → ∀ i j, i < p.n → j < p.n → Le (mget p.n p.m i j) (N pi i j))
    (f : Nat) (ch : Bool) (g' : Aug) (ps' : List Phy) (hr : closeAugmented f g ps = .ok (ch, g', ps')) :
    (∀ σ i j, i < n → j < n → Le (kindAt σ (g'.cell i j)) (M σ i j)) ∧
    (∀ (pi : Nat) p, ps'[pi]? = some p → ∀ i j, i < p.n → j < p.n → Le (mget p.n p.m i j) (N pi i j)) := by
  obtain ⟨hn, ha, hlk⟩ := built_n hg
  have hlo : LinksOk g ps := by
    intro l h
    rw [hlk] at h
    obtain ⟨p, a, b, c⟩ := hl l h
    exact ⟨p, a, by rw [hn]; exact b, by rw [ha]; exact c⟩
  obtain ⟨f2, ch2, g2, ps2, e, r, _⟩ := closeAugmented_total g ps (built_inv hg hlo) hps
  have e1 := closeAugmented_mono e (max f f2) (Nat.le_max_right _ _)
  rw [closeAugmented_mono hr (max f f2) (Nat.le_max_left _ _)] at e1
  simp only [Res.ok.injEq, Prod.mk.injEq] at e1
  obtain ⟨_, rfl, rfl⟩ := e1
  have := r.bound M N ⟨by rw [hn]; exact hM, fun l hl => by rw [hlk] at hl; exact hMN l hl⟩
    (by intro σ i j hi hj; exact hgM σ i j (hn ▸ hi) (hn ▸ hj)) hpN
  refine ⟨fun σ i j hi hj => this.1 σ i j (by rw [r.mono.n, hn]; exact hi) (by rw [r.mono.n, hn]; exact hj), this.2⟩

/-- a built graph with a chain 0→1→2, the second part conditional -/
def c19example : Res Aug := do
  let g ← addEdgeToGraph 0 1 ⟨0, 0⟩ 7 (emptyAug 3 [0, 1, 2] [])
  addEdgeToGraph 1 2 ⟨1, 0⟩ 5 g

theorem c19example_built : ∃ g, c19example = .ok g ∧ Dnc.Built 3 [0, 1, 2] [] g :=
  ⟨_, rfl, .add (g := _) 1 2 ⟨1, 0⟩ 5 (.add 0 1 ⟨0, 0⟩ 7 .empty (by omega) (by omega)
    (exists_sat (by unfold Cond.ok; decide)) (by decide) rfl) (by omega) (by omega)
    (exists_sat (by unfold Cond.ok; decide)) (by decide) rfl⟩

/-- closing it adds exactly 0→2 under `+0` of kind 7 -/
example : ((c19example >>= closeWorklist 10).bind fun g => .ok ((g.cell 0 2).map fun e => (e.cond, e.kind))) =
    .ok [(⟨1, 0⟩, 7)] := by decide +kernel

/-! ## C21 -/

/-- C21: closing a summary matrix ends; the result consists of exactly the paths of the input; the flag tells
whether the matrix changed. -/
theorem C21_exact (n : Nat) (m : List Dep) (hl : m.length = n * n) :
    ∃ f m' ch, (∀ f', f ≤ f' → closeSummary n f' (m, false) = .ok (m', ch)) ∧ m'.length = n * n ∧
      (∀ i j, i < n → j < n → ∀ b, (mget n m' i j).getLsbD b = true ↔ ∃ k, MPath n m i j k ∧ k.getLsbD b = true) ∧
      (ch = true ↔ m' ≠ m) := by
  obtain ⟨f, m', ch, e, s, c⟩ := closeSummary_total m false hl
  refine ⟨f, m', ch, closeSummary_mono e, by rw [s.le.len, hl], fun i j hi hj b => mpath_iff s.le c s.below hi hj b, ?_⟩
  constructor
  · rintro rfl rfl
    obtain ⟨i, j, _, _, h⟩ := (s.flag rfl).resolve_left (by simp)
    exact h rfl
  · intro hne
    by_contra hc
    rw [Bool.not_eq_true] at hc
    exact hne (s.quiet hc).1

/-- C21: so the result is transitively closed and the least such matrix above the input. -/
theorem C21_least_closed (n : Nat) (m : List Dep) (hl : m.length = n * n) (f : Nat) (m' : List Dep) (ch : Bool)
    (hr : closeSummary n f (m, false) = .ok (m', ch)) :
    (∀ i j, i < n → j < n → Le (mget n m i j) (mget n m' i j)) ∧
    (∀ i k j, i < n → k < n → j < n → Le (trans (mget n m' i k) (mget n m' k j)) (mget n m' i j)) ∧
    (∀ N : Nat → Nat → Dep, (∀ i k j, i < n → k < n → j < n → Le (trans (N i k) (N k j)) (N i j)) →
      (∀ i j, i < n → j < n → Le (mget n m i j) (N i j)) → ∀ i j, i < n → j < n → Le (mget n m' i j) (N i j)) := by
  obtain ⟨f2, m2, ch2, e, s, c⟩ := closeSummary_total m false hl
  have e1 := closeSummary_mono e (max f f2) (Nat.le_max_right _ _)
  rw [closeSummary_mono hr (max f f2) (Nat.le_max_left _ _)] at e1
  simp only [Res.ok.injEq, Prod.mk.injEq] at e1
  obtain ⟨rfl, rfl⟩ := e1
  exact ⟨s.le.le, c, s.below⟩

example : closeSummary 3 5 ([0, 7, 0, 0, 0, 5, 0, 0, 0], false) = .ok ([0, 7, 7, 0, 0, 5, 0, 0, 0], true) := by decide +kernel

/-! ## C22 -/

/-- C22: `analysis_state_cycle` reports exactly the kinds with which some instance depends on itself. -/
theorem C22_report (s : State) (b : Nat) : (stateCycle s).getLsbD b = true ↔
    (∃ p ∈ s.phys, ∃ j, j < p.n ∧ (mget p.n p.m j j).getLsbD b = true) ∨
    (∃ g ∈ s.augs, ∃ j, j < g.n ∧ ∃ e ∈ g.cell j j, e.kind.getLsbD b = true) := by
  have h1 : ∀ (ps : List Phy) (k : Dep), (ps.foldl (fun k p => (List.range p.n).foldl (fun k j => join k (mget p.n p.m j j)) k) k).getLsbD b = true ↔
      k.getLsbD b = true ∨ ∃ p ∈ ps, ∃ j, j < p.n ∧ (mget p.n p.m j j).getLsbD b = true := by
    intro ps
    induction ps with
    | nil => simp
    | cons p ps ih => intro k; rw [List.foldl_cons, ih, foldl_join_bit]; simp [or_assoc]
  have h2 : ∀ (gs : List Aug) (k : Dep), (gs.foldl (fun k g => (List.range g.n).foldl (fun k j => join k (edgesetKind (g.cell j j))) k) k).getLsbD b = true ↔
      k.getLsbD b = true ∨ ∃ g ∈ gs, ∃ j, j < g.n ∧ ∃ e ∈ g.cell j j, e.kind.getLsbD b = true := by
    intro gs
    induction gs with
    | nil => simp
    | cons g gs ih => intro k; rw [List.foldl_cons, ih, foldl_join_bit]; simp [or_assoc, edgesetKind_bit]
  unfold stateCycle
  simp only
  rw [h2, h1]; simp

/-- C22, after closure: in the closure of a built graph an instance has a dependency on itself iff in the original
graph there is a path from it to itself all of whose dependencies are enabled under one assignment. -/
theorem C22_after_closure {n : Nat} {attrs : List Nat} {links : List (Nat × Nat)} {g : Aug} (hg : Dnc.Built n attrs links g)
    (f : Nat) (g' : Aug) (hr : closeWorklist f g = .ok g') (ps : List Phy) (hp : ps = []) :
    stateCycle ⟨[g'], ps⟩ ≠ 0 ↔ ∃ j, j < n ∧ ∃ σ k, Path g σ j j k := by
  have hn := (built_n hg).1
  obtain ⟨f2, g2, e, w', i', d, m, bd⟩ := closeWorklist_total g (built_spec hg).1 (built_winv hg)
  have e1 := closeWorklist_mono e (max f f2) (Nat.le_max_right _ _)
  rw [closeWorklist_mono hr (max f f2) (Nat.le_max_left _ _)] at e1
  cases e1
  have hc := closed_of_winv w' i' d
  rw [m.n] at hc
  have pn : ∀ {σ i j k}, Path g σ i j k → k ≠ 0 := by
    intro σ i j k hp
    induction hp with
    | edge h1 h2 he _ => exact ((built_spec hg).1.ok _ _ h1 h2 _ he).2.2.2
    | comp _ _ a b => exact trans_ne_zero a b
  rw [dep_ne_zero]
  constructor
  · rintro ⟨b, hb⟩
    rw [C22_report] at hb
    rcases hb with ⟨p, hpm, _⟩ | ⟨x, hx, j, hj, ed, hed, hbb⟩
    · rw [hp] at hpm; cases hpm
    · simp only [List.mem_singleton] at hx
      subst hx
      obtain ⟨σ, hs⟩ := exists_sat (w'.ok j j hj hj ed hed).2.2.1
      rw [m.n] at hj
      obtain ⟨k, hk, _⟩ := (path_iff m hc bd σ hj hj b).1 (kindAt_bit.2 ⟨ed, hed, hs, hbb⟩)
      exact ⟨j, hn ▸ hj, σ, k, hk⟩
  · rintro ⟨j, hj, σ, k, hk⟩
    obtain ⟨b, hb⟩ := dep_ne_zero.1 (pn hk)
    obtain ⟨ed, hed, _, hb'⟩ := kindAt_bit.1 ((path_iff m hc bd σ (hn ▸ hj) (hn ▸ hj) b).2 ⟨k, hk, hb⟩)
    exact ⟨b, (C22_report _ b).2 (.inr ⟨g', by simp, j, by rw [m.n, hn]; exact hj, ed, hed, hb'⟩)⟩

example : stateCycle ⟨[], [⟨2, [], false, [0, 1, 0, 5]⟩]⟩ = 5 := by decide +kernel

/-! ## C23 -/

/-- States as `compute_dnc` hands them to `dnc_close`: graphs built by adding edges, summary matrices of the right
size, links that fit. -/
structure DncStart (s : State) : Prop where
  augs : ∀ g ∈ s.augs, Dnc.Built g.n g.attrs g.links g
  phys : ∀ p ∈ s.phys, p.m.length = p.n * p.n
  links : ∀ g ∈ s.augs, ∀ l ∈ g.links, ∃ p, s.phys[l.2]? = some p ∧ l.1 + p.n ≤ g.n ∧
    ∀ i, i < p.n → g.attrs[l.1 + i]? = p.attrs[i]?

/-- The mutual fixpoint. -/
structure DncFixpoint (s : State) : Prop where
  /-- every augmented graph is transitively closed under every assignment -/
  augClosed : ∀ g ∈ s.augs, ∀ σ i k j, i < g.n → k < g.n → j < g.n →
    Le (trans (kindAt σ (g.cell i k)) (kindAt σ (g.cell k j))) (kindAt σ (g.cell i j))
  /-- every augmented graph contains the summaries of its nodes, unconditionally -/
  summaryIn : ∀ g ∈ s.augs, ∀ l ∈ g.links, ∀ p, s.phys[l.2]? = some p → ∀ i j, i < p.n → j < p.n →
    ∀ σ, Le (mget p.n p.m i j) (kindAt σ (g.cell (l.1 + i) (l.1 + j)))
  /-- every summary (except of functions) contains the (indirect) dependencies its nodes have anywhere -/
  summaryOut : ∀ g ∈ s.augs, ∀ l ∈ g.links, ∀ p, s.phys[l.2]? = some p → p.isFunc = false → ∀ i j, i < p.n → j < p.n →
    ∀ σ, Le (indirect (kindAt σ (g.cell (l.1 + i) (l.1 + j)))) (mget p.n p.m i j)
  /-- every summary is transitively closed -/
  sumClosed : ∀ p ∈ s.phys, ∀ i k j, i < p.n → k < p.n → j < p.n →
    Le (trans (mget p.n p.m i k) (mget p.n p.m k j)) (mget p.n p.m i j)

theorem DncStart.inv {s : State} (h : DncStart s) : SInv s :=
  ⟨fun g hg => built_inv (h.augs g hg) (h.links g hg), h.phys⟩

/-- C23: the DNC iteration ends, with a mutual fixpoint that contains the input. -/
theorem C23_fixpoint (s : State) (h : DncStart s) :
    ∃ f s', (∀ f', f ≤ f' → dncClose f' s = .ok s') ∧ DncFixpoint s' ∧
      s'.augs.length = s.augs.length ∧ s'.phys.length = s.phys.length ∧
      (∀ (i : Nat) g', s'.augs[i]? = some g' → ∃ g, s.augs[i]? = some g ∧ g'.n = g.n ∧ g'.links = g.links ∧
        ∀ σ a b, a < g.n → b < g.n → Le (kindAt σ (g.cell a b)) (kindAt σ (g'.cell a b))) ∧
      (∀ (i : Nat) p, s.phys[i]? = some p → ∃ p', s'.phys[i]? = some p' ∧ p'.n = p.n ∧
        ∀ a b, a < p.n → b < p.n → Le (mget p.n p.m a b) (mget p.n p'.m a b)) := by
  obtain ⟨f, s', e, fx, r⟩ := dncClose_total s h.inv
  refine ⟨f, s', dncClose_mono e, ⟨?_, ?_, ?_, fx.closed⟩, r.augs.length_eq.symm, r.phys.len, ?_, ?_⟩
  · intro g hg
    exact closed_of_winv (fx.inv.augs g hg).wf (fx.inv.augs g hg).winv (fx.done g hg)
  · intro g hg l hl p hp i j hi hj σ
    refine (fx.down g hg l hl p hp i j hi hj).trans' ?_
    intro b hb
    obtain ⟨ed, he, hc, hk⟩ := lowerbound_bit.1 hb
    refine kindAt_bit.2 ⟨ed, he, ?_, hk⟩
    rw [hc]; intro t; constructor <;> intro h <;> simp at h
  · intro g hg l hl p hp hf i j hi hj σ
    refine Le.trans' (indirect_mono ?_) (fx.up g hg l hl p hp hf i j hi hj)
    intro b hb
    obtain ⟨ed, he, _, hk⟩ := kindAt_bit.1 hb
    exact edgesetKind_bit.2 ⟨ed, he, hk⟩
  · intro i g' hg'
    obtain ⟨g, eg, m⟩ := forall2_get r.augs hg'
    exact ⟨g, eg, m.n, m.links, fun σ a b ha hb => m.kind ha hb σ⟩
  · intro i p hp
    obtain ⟨p', ep, l⟩ := r.phys.le i p hp
    exact ⟨p', ep, l.n, l.m.le⟩

/-- C23: and it goes nowhere beyond: whenever `M`, `N` bound the input and are a mutual fixpoint (with the
dependencies at the links independent of conditions) they bound the result. -/
theorem C23_nothing_spurious (s : State) (h : DncStart s) (f : Nat) (s' : State) (hr : dncClose f s = .ok s')
    (M : Nat → (Nat → Bool) → Nat → Nat → Dep) (N : Nat → Nat → Nat → Dep)
    (hM : ∀ (x : Nat) g, s.augs[x]? = some g → ∀ σ i k j, i < g.n → k < g.n → j < g.n →
      Le (trans (M x σ i k) (M x σ k j)) (M x σ i j))
    (hN : ∀ (y : Nat) p, s.phys[y]? = some p → ∀ i k j, i < p.n → k < p.n → j < p.n →
      Le (trans (N y i k) (N y k j)) (N y i j))
    (hMN : ∀ (x : Nat) g, s.augs[x]? = some g → ∀ l ∈ g.links, ∀ p, s.phys[l.2]? = some p → ∀ i j, i < p.n → j < p.n →
      (∀ σ, Le (N l.2 i j) (M x σ (l.1 + i) (l.1 + j))) ∧
      (N l.2 i j ≠ 0 → ∀ σ σ', Le (M x σ (l.1 + i) (l.1 + j)) (M x σ' (l.1 + i) (l.1 + j))) ∧
      (p.isFunc = false → ∀ σ, Le (indirect (M x σ (l.1 + i) (l.1 + j))) (N l.2 i j)))
    (hgM : ∀ (x : Nat) g, s.augs[x]? = some g → ∀ σ i j, i < g.n → j < g.n → Le (kindAt σ (g.cell i j)) (M x σ i j))
    (hpN : ∀ (y : Nat) p, s.phys[y]? = some p → ∀ i j, i < p.n → j < p.n → Le (mget p.n p.m i j) (N y i j)) :
    (∀ (x : Nat) g, s'.augs[x]? = some g → ∀ σ i j, i < g.n → j < g.n → Le (kindAt σ (g.cell i j)) (M x σ i j)) ∧
    (∀ (y : Nat) p, s'.phys[y]? = some p → ∀ i j, i < p.n → j < p.n → Le (mget p.n p.m i j) (N y i j)) := by
  obtain ⟨f2, s2, e, fx, r⟩ := dncClose_total s h.inv
  have e1 := dncClose_mono e (max f f2) (Nat.le_max_right _ _)
  rw [dncClose_mono hr (max f f2) (Nat.le_max_left _ _)] at e1
  cases e1
  have := r.bound M N ⟨fun x g hg => ⟨hM x g hg, hMN x g hg⟩, hN⟩ ⟨hgM, hpN⟩
  exact ⟨this.augs, this.phys⟩

/-- a grammar with one phylum (two attributes) and one rule with a parent (instances 0,1) and a child (2,3):
parent's 0 → child's 2, child's 3 → parent's 1, and the phylum's summary says 0 → 1 -/
def c23graph : Res Aug := do
  let g ← addEdgeToGraph 0 2 ⟨0, 0⟩ 15 (emptyAug 4 [10, 11, 10, 11] [(0, 0), (2, 0)])
  let g ← addEdgeToGraph 3 1 ⟨0, 0⟩ 15 g
  addEdgeToGraph 0 1 ⟨1, 0⟩ 11 g

theorem c23graph_built : ∃ g, c23graph = .ok g ∧ Dnc.Built 4 [10, 11, 10, 11] [(0, 0), (2, 0)] g :=
  ⟨_, rfl, .add (g := _) 0 1 ⟨1, 0⟩ 11 (.add (g := _) 3 1 ⟨0, 0⟩ 15 (.add 0 2 ⟨0, 0⟩ 15 .empty (by omega) (by omega)
    (exists_sat (by unfold Cond.ok; decide)) (by decide) rfl) (by omega) (by omega)
    (exists_sat (by unfold Cond.ok; decide)) (by decide) rfl) (by omega) (by omega)
    (exists_sat (by unfold Cond.ok; decide)) (by decide) rfl⟩

/-- such a state meets the hypotheses, and the iteration propagates the dependency to the summary and back -/
example : ∃ g, c23graph = .ok g ∧ DncStart ⟨[g], [⟨2, [10, 11], false, [0, 0, 0, 0]⟩]⟩ ∧
    (dncClose 30 ⟨[g], [⟨2, [10, 11], false, [0, 0, 0, 0]⟩]⟩).bind (fun s => .ok (s.phys.map (·.m))) = .ok [[0, 3, 0, 0]] := by
  obtain ⟨g, e, hb⟩ := c23graph_built
  obtain ⟨hn, ha, hl⟩ := built_n hb
  refine ⟨g, e, ⟨?_, ?_, ?_⟩, ?_⟩
  · intro x hx; simp only [List.mem_singleton] at hx; subst hx; rw [hn, ha, hl]; exact hb
  · intro p hp; simp only [List.mem_singleton] at hp; subst hp; rfl
  · intro x hx l hll
    simp only [List.mem_singleton] at hx; subst hx
    rw [hl] at hll
    refine ⟨⟨2, [10, 11], false, [0, 0, 0, 0]⟩, ?_⟩
    rw [ha, hn]
    simp only [List.mem_cons, List.not_mem_nil, or_false] at hll
    rcases hll with rfl | rfl
    · refine ⟨rfl, by simp, fun i hi => ?_⟩
      rcases i with _ | _ | i <;> [rfl; rfl; (simp only at hi; omega)]
    · refine ⟨rfl, by simp, fun i hi => ?_⟩
      rcases i with _ | _ | i <;> [rfl; rfl; (simp only at hi; omega)]
  · have : c23graph.bind (fun g => (dncClose 30 ⟨[g], [⟨2, [10, 11], false, [0, 0, 0, 0]⟩]⟩).bind (fun s => .ok (s.phys.map (·.m)))) =
        .ok [[0, 3, 0, 0]] := by decide +kernel
    rw [e] at this
    exact this

end Aps.Props

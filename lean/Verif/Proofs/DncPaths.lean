import Verif.Proofs.DncMain
/-! Closures as sets of paths; graphs built by adding edges; any worklist order. -/
namespace Aps.Dnc

/-- The empty graph: `n` instances, no dependency, empty worklist (aps-dnc.c: the arrays are allocated and
cleared when the graph is initialised). -/
def emptyAug (n : Nat) (attrs : List Nat) (links : List (Nat × Nat)) : Aug :=
  { n := n, attrs := attrs, cells := List.replicate (n * n) [], wl := ⟨[], 0⟩, links := links }

/-- Graphs as the analysis builds them: dependencies are added one at a time. -/
inductive Built (n : Nat) (attrs : List Nat) (links : List (Nat × Nat)) : Aug → Prop
  | empty : Built n attrs links (emptyAug n attrs links)
  | add {g g' : Aug} (i j : Nat) (c : Cond) (k : Dep) : Built n attrs links g → i < n → j < n → (∃ σ, Sat σ c) → k ≠ 0 →
      addEdgeToGraph i j c k g = .ok g' → Built n attrs links g'

/-- A path of dependencies, each enabled under the assignment, and the kind it combines to. -/
inductive Path (g : Aug) (σ : Nat → Bool) : Nat → Nat → Dep → Prop
  | edge {i j : Nat} {e : Edge} : i < g.n → j < g.n → e ∈ g.cell i j → Sat σ e.cond → Path g σ i j e.kind
  | comp {i k j : Nat} {a b : Dep} : Path g σ i k a → Path g σ k j b → Path g σ i j (trans a b)

/-- A path in a summary matrix and the kind it combines to. -/
inductive MPath (n : Nat) (m : List Dep) : Nat → Nat → Dep → Prop
  | entry {i j : Nat} : i < n → j < n → mget n m i j ≠ 0 → MPath n m i j (mget n m i j)
  | comp {i k j : Nat} {a b : Dep} : MPath n m i k a → MPath n m k j b → MPath n m i j (trans a b)

theorem built_n {n attrs links g} (h : Built n attrs links g) : g.n = n ∧ g.attrs = attrs ∧ g.links = links := by
  induction h with
  | empty => exact ⟨rfl, rfl, rfl⟩
  | add i j c k _ _ _ _ _ e ih =>
    unfold addEdgeToGraph at e
    rw [Res.bind_eq_ok] at e
    obtain ⟨r, _, e⟩ := e
    simp only [Res.pure_eq, Res.ok.injEq] at e
    subst e
    exact ih

theorem built_spec {n attrs links g} (h : Built n attrs links g) :
    GWf g ∧ ∀ i j, i < g.n → j < g.n → ∀ e ∈ g.cell i j, e ∈ g.wl.list := by
  induction h with
  | empty =>
    have hc : ∀ i j, (emptyAug n attrs links).cell i j = [] := by
      intro i j
      unfold Aug.cell emptyAug
      simp only [List.getElem?_replicate]
      split <;> rfl
    refine ⟨⟨by simp [emptyAug], ?_, ?_, ?_, ?_, by simp [emptyAug]⟩, ?_⟩
    · intro i j _ _ e he; rw [hc] at he; cases he
    · intro i j _ _ e he; rw [hc] at he; cases he
    · intro i j _ _; rw [hc]; simp
    · intro i j _ _ _ _ _ _ e he; rw [hc] at he; cases he
    · intro i j _ _ e he; rw [hc] at he; cases he
  | add i j c k hb hi hj hs hk e ih =>
    obtain ⟨w, hw⟩ := ih
    obtain ⟨σ, hσ⟩ := hs
    have hn := (built_n hb).1
    obtain ⟨g', e', w', s, _⟩ := addEdgeToGraph_spec w (hn ▸ hi) (hn ▸ hj) (ok_of_sat hσ) hk
    rw [e] at e'; cases e'
    refine ⟨w', fun a b ha hb x hx => ?_⟩
    rw [s.n] at ha hb
    rcases s.new a b ha hb x hx with h | h
    · have eo := w'.ok a b (by rw [s.n]; exact ha) (by rw [s.n]; exact hb) x hx
      exact s.keep x (hw a b ha hb x h) (by rw [eo.1, eo.2.1]; exact hx)
    · exact h

theorem built_winv {n attrs links g} (h : Built n attrs links g) : WInv g :=
  fun i k _ hi hk _ a ha _ _ => .inl ((built_spec h).2 i k hi hk a ha)

theorem built_inv {n attrs links g} (h : Built n attrs links g) {ps : List Phy} (hl : LinksOk g ps) : AInv ps g := by
  obtain ⟨w, hw⟩ := built_spec h
  refine ⟨w, built_winv h, hl, ?_⟩
  intro he l hll p ep hf i j hi hj
  obtain ⟨q, eq, h1, _⟩ := hl l hll
  rw [ep] at eq; cases eq
  have : g.cell (l.1 + i) (l.1 + j) = [] := by
    rcases hc : g.cell (l.1 + i) (l.1 + j) with _ | ⟨x, xs⟩
    · rfl
    · have := hw (l.1 + i) (l.1 + j) (by omega) (by omega) x (by rw [hc]; simp)
      rw [he] at this; cases this
  rw [this]
  intro b hb
  rw [indirect_bit, edgesetKind_bit] at hb
  simp at hb

/-! ### words with given bits -/

theorem exists_word (P : Nat → Prop) : ∃ w : Dep, ∀ b, w.getLsbD b = true ↔ b < 32 ∧ P b := by
  classical
  have : ∀ m, m ≤ 32 → ∃ w : Dep, ∀ b, w.getLsbD b = true ↔ b < m ∧ P b := by
    intro m
    induction m with
    | zero => intro _; exact ⟨0#32, by simp⟩
    | succ m ih =>
      intro hm
      obtain ⟨w, hw⟩ := ih (by omega)
      refine ⟨w ||| (if P m then BitVec.twoPow 32 m else 0#32), fun b => ?_⟩
      rw [BitVec.getLsbD_or, Bool.or_eq_true, hw]
      by_cases hp : P m
      · rw [if_pos hp, BitVec.getLsbD_twoPow]
        simp only [Bool.and_eq_true, decide_eq_true_eq]
        constructor
        · rintro (⟨h1, h2⟩ | ⟨h1, rfl⟩)
          · exact ⟨by omega, h2⟩
          · exact ⟨by omega, hp⟩
        · rintro ⟨h1, h2⟩
          rcases Nat.lt_or_ge b m with h | h
          · exact .inl ⟨h, h2⟩
          · exact .inr ⟨by omega, by omega⟩
      · rw [if_neg hp]
        simp only [BitVec.getLsbD_zero, Bool.false_eq_true, or_false]
        constructor
        · rintro ⟨h1, h2⟩; exact ⟨by omega, h2⟩
        · rintro ⟨h1, h2⟩
          refine ⟨?_, h2⟩
          rcases Nat.lt_or_ge b m with h | h
          · exact h
          · have : b = m := by omega
            subst this; exact absurd h2 hp
  exact this 32 (le_refl _)

/-- If all combinations of members of two families are in a third, the combination of their joins is below the
join of the third. -/
theorem trans_family {A B C : Dep → Prop} {a b c : Dep} (ha : ∀ t, a.getLsbD t = true ↔ t < 32 ∧ ∃ x, A x ∧ x.getLsbD t = true)
    (hb : ∀ t, b.getLsbD t = true ↔ t < 32 ∧ ∃ x, B x ∧ x.getLsbD t = true)
    (hc : ∀ t, c.getLsbD t = true ↔ t < 32 ∧ ∃ x, C x ∧ x.getLsbD t = true)
    (h : ∀ x y, A x → B y → C (trans x y)) : Le (trans a b) c := by
  intro t ht
  have key : ∀ x y, A x → B y → (trans x y).getLsbD t = true → c.getLsbD t = true := by
    intro x y hx hy hxy
    exact (hc t).2 ⟨BitVec.lt_of_getLsbD hxy, _, h x y hx hy, hxy⟩
  rw [trans_bit] at ht
  obtain ⟨n1, n2, ht⟩ := ht
  obtain ⟨t1, h1⟩ := dep_ne_zero.1 n1
  obtain ⟨t2, h2⟩ := dep_ne_zero.1 n2
  obtain ⟨_, x, hx, hx1⟩ := (ha t1).1 h1
  obtain ⟨_, y, hy, hy1⟩ := (hb t2).1 h2
  have hx0 : x ≠ 0 := dep_ne_zero.2 ⟨_, hx1⟩
  have hy0 : y ≠ 0 := dep_ne_zero.2 ⟨_, hy1⟩
  rcases ht with rfl | ⟨rfl, h' | h'⟩ | ⟨rfl, h', h''⟩ | ⟨rfl, h', h''⟩
  · exact key x y hx hy (trans_bit.2 ⟨hx0, hy0, .inl rfl⟩)
  · obtain ⟨_, z, hz, hz1⟩ := (ha _).1 h'
    exact key z y hz hy (trans_bit.2 ⟨dep_ne_zero.2 ⟨_, hz1⟩, hy0, .inr (.inl ⟨rfl, .inl hz1⟩)⟩)
  · obtain ⟨_, z, hz, hz1⟩ := (hb _).1 h'
    exact key x z hx hz (trans_bit.2 ⟨hx0, dep_ne_zero.2 ⟨_, hz1⟩, .inr (.inl ⟨rfl, .inr hz1⟩)⟩)
  · obtain ⟨_, z, hz, hz1⟩ := (ha _).1 h'
    obtain ⟨_, u, hu, hu1⟩ := (hb _).1 h''
    exact key z u hz hu (trans_bit.2 ⟨dep_ne_zero.2 ⟨_, hz1⟩, dep_ne_zero.2 ⟨_, hu1⟩, .inr (.inr (.inl ⟨rfl, hz1, hu1⟩))⟩)
  · obtain ⟨_, z, hz, hz1⟩ := (ha _).1 h'
    obtain ⟨_, u, hu, hu1⟩ := (hb _).1 h''
    exact key z u hz hu (trans_bit.2 ⟨dep_ne_zero.2 ⟨_, hz1⟩, dep_ne_zero.2 ⟨_, hu1⟩, .inr (.inr (.inr ⟨rfl, hz1, hu1⟩))⟩)

/-- A closed graph between the original and every closed bound has exactly the kinds of the paths of the original. -/
theorem path_iff {g g' : Aug} (m : Mono g g') (hc : Closed g.n (fun σ i j => kindAt σ (g'.cell i j)))
    (hl : ∀ M, Closed g.n M → Below M g → Below M g') (σ : Nat → Bool) {i j : Nat} (hi : i < g.n) (hj : j < g.n) (b : Nat) :
    (kindAt σ (g'.cell i j)).getLsbD b = true ↔ ∃ k, Path g σ i j k ∧ k.getLsbD b = true := by
  constructor
  · intro hb
    choose M hM using fun (τ : Nat → Bool) (a c : Nat) => exists_word (fun t => ∃ k, Path g τ a c k ∧ k.getLsbD t = true)
    have hMc : Closed g.n M := by
      intro τ a k c _ _ _
      exact trans_family (hM τ a k) (hM τ k c) (hM τ a c) (fun x y hx hy => .comp hx hy)
    have hMb : Below M g := by
      intro τ a c ha hc t ht
      obtain ⟨e, he, hs, hk⟩ := kindAt_bit.1 ht
      exact (hM τ a c t).2 ⟨BitVec.lt_of_getLsbD hk, _, .edge ha hc he hs, hk⟩
    have := hl M hMc hMb σ i j (by rw [m.n]; exact hi) (by rw [m.n]; exact hj) b hb
    exact ((hM σ i j b).1 this).2
  · rintro ⟨k, hp, hk⟩
    have : ∀ {i j k}, Path g σ i j k → i < g.n ∧ j < g.n ∧ Le k (kindAt σ (g'.cell i j)) := by
      intro i j k hp
      induction hp with
      | edge h1 h2 he hs => exact ⟨h1, h2, (le_kindAt he hs).trans' (m.kind h1 h2 σ)⟩
      | comp _ _ ih1 ih2 =>
        exact ⟨ih1.1, ih2.2.1, (trans_mono ih1.2.2 ih2.2.2).trans' (hc σ _ _ _ ih1.1 ih1.2.1 ih2.2.1)⟩
    exact (this hp).2.2 b hk

/-- The same for matrices. -/
theorem mpath_iff {n : Nat} {m m' : List Dep} (l : MLe n m m') (hc : MClosed n (mget n m'))
    (hl : ∀ N, MClosed n N → MBelow n m N → MBelow n m' N) {i j : Nat} (hi : i < n) (hj : j < n) (b : Nat) :
    (mget n m' i j).getLsbD b = true ↔ ∃ k, MPath n m i j k ∧ k.getLsbD b = true := by
  constructor
  · intro hb
    choose M hM using fun (a c : Nat) => exists_word (fun t => ∃ k, MPath n m a c k ∧ k.getLsbD t = true)
    have hMc : MClosed n M := by
      intro a k c _ _ _
      exact trans_family (hM a k) (hM k c) (hM a c) (fun x y hx hy => .comp hx hy)
    have hMb : MBelow n m M := by
      intro a c ha hc t ht
      exact (hM a c t).2 ⟨BitVec.lt_of_getLsbD ht, _, .entry ha hc (dep_ne_zero.2 ⟨_, ht⟩), ht⟩
    have := hl M hMc hMb i j hi hj b hb
    exact ((hM i j b).1 this).2
  · rintro ⟨k, hp, hk⟩
    have : ∀ {i j k}, MPath n m i j k → i < n ∧ j < n ∧ Le k (mget n m' i j) := by
      intro i j k hp
      induction hp with
      | entry h1 h2 _ => exact ⟨h1, h2, l.le _ _ h1 h2⟩
      | comp _ _ ih1 ih2 =>
        exact ⟨ih1.1, ih2.2.1, (trans_mono ih1.2.2 ih2.2.2).trans' (hc _ _ _ ih1.1 ih1.2.1 ih2.2.1)⟩
    exact (this hp).2.2 b hk

/-! ### any order of the worklist -/

/-- One iteration of the worklist loop, but with any edge of the worklist. -/
inductive Pick : Aug → Aug → Prop
  | pick {g g' : Aug} {l1 l2 : List Edge} {e : Edge} : g.wl.list = l1 ++ e :: l2 →
      closeUsingEdge { g with wl := { g.wl with list := l1 ++ l2 } } e = .ok g' → Pick g g'

theorem gwf_perm {g : Aug} (w : GWf g) {l : List Edge} (h : ∀ e, e ∈ l ↔ e ∈ g.wl.list) :
    GWf { g with wl := { g.wl with list := l } } :=
  ⟨w.len, w.ok, w.id, w.nd, w.uniq, fun e he => w.wl e ((h e).1 he)⟩

theorem winv_perm {g : Aug} (w : WInv g) {l : List Edge} (h : ∀ e, e ∈ l ↔ e ∈ g.wl.list) :
    WInv { g with wl := { g.wl with list := l } } := by
  intro i k j hi hk hj a ha b hb
  rcases w i k j hi hk hj a ha b hb with h' | h' | h'
  · exact .inl ((h a).2 h')
  · exact .inr (.inl ((h b).2 h'))
  · exact .inr (.inr h')

theorem pick_spec {g : Aug} (w : GWf g) (h : WInv g) {l1 l2 : List Edge} {e : Edge} (hw : g.wl.list = l1 ++ e :: l2) :
    ∃ g', closeUsingEdge { g with wl := { g.wl with list := l1 ++ l2 } } e = .ok g' ∧ GWf g' ∧ WInv g' ∧ Mono g g' ∧
      (∀ M, Closed g.n M → Below M g → Below M g') ∧
      (missing g' < missing g ∨ missing g' ≤ missing g ∧ g'.wl.list.length < g.wl.list.length) := by
  have hp : ∀ x, x ∈ e :: (l1 ++ l2) ↔ x ∈ g.wl.list := by
    intro x; rw [hw]; simp only [List.mem_cons, List.mem_append]; tauto
  have w' := gwf_perm w hp
  have h' := winv_perm h hp
  obtain ⟨g1, e1, w1, i1, s1, m1⟩ := closeUsingEdge_spec w' h' (e := e) (rest := l1 ++ l2) rfl
  have mo : Mono g g1 := ⟨s1.n, s1.attrs, s1.links, s1.mono⟩
  refine ⟨g1, e1, w1, i1, mo, m1, ?_⟩
  rcases s1.grow with ⟨_, h2, _⟩ | h2
  · right
    refine ⟨mo.missing_le, ?_⟩
    rw [hw]
    simp only [List.length_append, List.length_cons] at h2 ⊢
    omega
  · left
    exact missing_lt s1.n h2

theorem pick_run {g g' : Aug} (hr : Relation.ReflTransGen Pick g g') (w : GWf g) (h : WInv g) :
    GWf g' ∧ WInv g' ∧ Mono g g' ∧ (∀ M, Closed g.n M → Below M g → Below M g') := by
  induction hr with
  | refl => exact ⟨w, h, Mono.refl g, fun _ _ h => h⟩
  | tail _ hp ih =>
    obtain ⟨w1, i1, m1, b1⟩ := ih
    cases hp with
    | pick hw he =>
      obtain ⟨g2, e2, w2, i2, m2, b2, _⟩ := pick_spec w1 i1 hw
      rw [he] at e2; cases e2
      exact ⟨w2, i2, m1.trans' m2, fun M hM hB => b2 M (by rw [m1.n]; exact hM) (b1 M hM hB)⟩

/-- no infinite run, whatever the order -/
theorem pick_acc (g : Aug) (w : GWf g) (h : WInv g) : Acc (fun a b => Pick b a) g := by
  generalize hm : missing g = m
  induction m using Nat.strong_induction_on generalizing g with
  | _ m ihm =>
  generalize hl : g.wl.list.length = l
  induction l using Nat.strong_induction_on generalizing g with
  | _ l ihl =>
  constructor
  intro g' hp
  cases hp with
  | pick hw he =>
    obtain ⟨g2, e2, w2, i2, m2, b2, t⟩ := pick_spec w h hw
    rw [he] at e2; cases e2
    rcases t with t | ⟨t1, t2⟩
    · exact ihm _ (by omega) g' w2 i2 rfl
    · rcases Nat.lt_or_ge (missing g') m with h' | h'
      · exact ihm _ h' g' w2 i2 rfl
      · exact ihl _ (by omega) g' w2 i2 (by omega) rfl

end Aps.Dnc

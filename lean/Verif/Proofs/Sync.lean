import Verif.Proofs.Summary
/-! Exchanging dependencies between augmented graphs and summary graphs. -/
namespace Aps.Dnc

/-- well-formed summary graphs -/
def PWf (p : Phy) : Prop := p.m.length = p.n * p.n

/-- a summary graph only grows -/
structure PLe (p p' : Phy) : Prop where
  n : p'.n = p.n
  attrs : p'.attrs = p.attrs
  isFunc : p'.isFunc = p.isFunc
  m : MLe p.n p.m p'.m

theorem PLe.refl (p : Phy) : PLe p p := ⟨rfl, rfl, rfl, MLe.refl _ _⟩
theorem PLe.trans' {a b c : Phy} (h1 : PLe a b) (h2 : PLe b c) : PLe a c := by
  refine ⟨h2.n.trans h1.n, h2.attrs.trans h1.attrs, h2.isFunc.trans h1.isFunc, h1.m.trans' ?_⟩
  have := h2.m
  rw [h1.n] at this
  exact this

theorem mget_ext {n : Nat} {m m' : List Dep} (hl : m.length = n * n) (hl' : m'.length = n * n)
    (h : ∀ i j, i < n → j < n → mget n m i j = mget n m' i j) : m = m' := by
  apply List.ext_getElem (by omega)
  intro x h1 h2
  have hn : 0 < n := by
    rcases Nat.eq_zero_or_pos n with rfl | h
    · simp at hl; simp [hl] at h1
    · exact h
  have hx : x / n < n := by rw [Nat.div_lt_iff_lt_mul hn]; omega
  have := h (x / n) (x % n) hx (Nat.mod_lt _ hn)
  unfold mget at this
  rw [Nat.div_add_mod' x n] at this
  rw [List.getElem?_eq_getElem h1, List.getElem?_eq_getElem h2] at this
  simpa using this

theorem PLe.antisymm {p p' : Phy} (hw : PWf p) (h1 : PLe p p') (h2 : PLe p' p) : p' = p := by
  have hn := h1.n
  have hm : p'.m = p.m := by
    have hl : p'.m.length = p.n * p.n := by rw [h1.m.len]; exact hw
    apply mget_ext hl hw
    intro i j hi hj
    refine Le.antisymm ?_ (h1.m.le i j hi hj)
    have := h2.m.le i j (by omega) (by omega)
    rw [hn] at this
    exact this
  cases p; cases p'
  simp only [Phy.mk.injEq]
  exact ⟨h1.n, h1.attrs, h1.isFunc, hm⟩

/-- conditions on upper bounds for one cell shared by a graph and a summary -/
def CellBound (M : (Nat → Bool) → Nat → Nat → Dep) (N : Nat → Nat → Dep) (func : Bool) (start i j : Nat) : Prop :=
  (∀ σ, Le (N i j) (M σ (start + i) (start + j))) ∧
  (N i j ≠ 0 → ∀ σ σ', Le (M σ (start + i) (start + j)) (M σ' (start + i) (start + j))) ∧
  (func = false → ∀ σ, Le (indirect (M σ (start + i) (start + j))) (N i j))

theorem indirect_mono {a b : Dep} (h : Le a b) : Le (indirect a) (indirect b) := by
  intro i hi
  rw [indirect_bit] at hi ⊢
  exact ⟨h i hi.1, hi.2⟩

/-- what is needed at a cell for a quiet pass to mean that the summary is in the graph: the summary has a dependency
where the graph has an indirect one, and its dependencies are in the graph or at least those of the graph -/
def WeakC (g : Aug) (p : Phy) (start i j : Nat) : Prop :=
  (p.isFunc = false → indirect (edgesetKind (g.cell (start + i) (start + j))) ≠ 0 → mget p.n p.m i j ≠ 0) ∧
  (mget p.n p.m i j ≠ 0 → edgesetLowerbound (g.cell (start + i) (start + j)) ≠ 0 ∨ p.isFunc = true ∨
    Le (indirect (edgesetKind (g.cell (start + i) (start + j)))) (mget p.n p.m i j))

/-- a dependency of the summary is in the graph, unconditionally -/
def Down0 (g : Aug) (p : Phy) (start i j : Nat) : Prop :=
  mget p.n p.m i j ≠ 0 → edgesetLowerbound (g.cell (start + i) (start + j)) ≠ 0

/-- a summary grows but not by new pairs -/
structure PZ (p p' : Phy) : Prop where
  le : PLe p p'
  z : ∀ i j, i < p.n → j < p.n → mget p.n p'.m i j ≠ 0 → mget p.n p.m i j ≠ 0

theorem PZ.refl (p : Phy) : PZ p p := ⟨PLe.refl p, fun _ _ _ _ h => h⟩
theorem PZ.trans' {a b c : Phy} (h1 : PZ a b) (h2 : PZ b c) : PZ a c :=
  ⟨h1.le.trans' h2.le, fun i j hi hj h => h1.z i j hi hj (by
    have := h2.z i j (by rw [h1.le.n]; exact hi) (by rw [h1.le.n]; exact hj)
    rw [h1.le.n] at this
    exact this h)⟩

theorem le_ne_zero {a b : Dep} (h : Le a b) (ha : a ≠ 0) : b ≠ 0 := by
  rintro rfl
  apply ha
  obtain ⟨t, ht⟩ := dep_ne_zero.1 ha
  have := h t ht
  simp at this

theorem WeakC.mono {g : Aug} {p p' : Phy} {start i j : Nat} (h : WeakC g p start i j) (l : PLe p p') (hi : i < p.n) (hj : j < p.n) :
    WeakC g p' start i j := by
  have hl := l.m.le i j hi hj
  unfold WeakC
  rw [l.isFunc, l.n]
  refine ⟨fun hf hk => le_ne_zero hl (h.1 hf hk), fun hne => ?_⟩
  by_cases h0 : mget p.n p.m i j = 0
  · cases hf : p.isFunc with
    | true => exact .inr (.inl rfl)
    | false =>
      right; right
      have : indirect (edgesetKind (g.cell (start + i) (start + j))) = 0 := by
        by_contra hk; exact h.1 hf hk h0
      rw [this]; exact Le.zero _
  · rcases h.2 h0 with h' | h' | h'
    · exact .inl h'
    · exact .inr (.inl h')
    · exact .inr (.inr (h'.trans' hl))

theorem Down0.pz {g : Aug} {p p' : Phy} {start i j : Nat} (h : Down0 g p start i j) (z : PZ p p') (hi : i < p.n) (hj : j < p.n) :
    Down0 g p' start i j := by
  intro hne
  rw [z.le.n] at hne
  exact h (z.z i j hi hj hne)

/-- what synchronising the cells `C` does -/
structure SyncR (start : Nat) (C : Nat × Nat → Prop) (g : Aug) (p : Phy) (g' : Aug) (p' : Phy) : Prop where
  wf : GWf g'
  step : Step g g'
  pwf : PWf p'
  ple : PLe p p'
  quiet : g'.wl.list = [] → g' = g
  up : g'.wl.list = [] → p.isFunc = false → ∀ x, C x →
    Le (indirect (edgesetKind (g'.cell (start + x.1) (start + x.2)))) (mget p'.n p'.m x.1 x.2)
  down : g'.wl.list = [] → p' = p → ∀ x, C x →
    Le (mget p'.n p'.m x.1 x.2) (edgesetLowerbound (g'.cell (start + x.1) (start + x.2)))
  still : g'.wl.list = [] → (p.isFunc = false → ∀ x, C x →
    Le (indirect (edgesetKind (g.cell (start + x.1) (start + x.2)))) (mget p.n p.m x.1 x.2)) → p' = p
  weak : g'.wl.list = [] → (∀ x, C x → WeakC g p start x.1 x.2) → PZ p p' ∧ ∀ x, C x → Down0 g p' start x.1 x.2
  bound : ∀ M N, (∀ x, C x → CellBound M N p.isFunc start x.1 x.2) → Below M g → MBelow p.n p.m N →
    Below M g' ∧ MBelow p'.n p'.m N

theorem edgesetKind_le {g : Aug} (w : GWf g) {i j : Nat} (hi : i < g.n) (hj : j < g.n) {M} (hB : Below M g)
    (hM : ∀ σ σ', Le (M σ i j) (M σ' i j)) (σ : Nat → Bool) : Le (edgesetKind (g.cell i j)) (M σ i j) := by
  intro b hb
  obtain ⟨e, he, hb⟩ := edgesetKind_bit.1 hb
  have eo := w.ok i j hi hj e he
  obtain ⟨τ, hτ⟩ := exists_sat eo.2.2.1
  exact hM τ σ b (hB τ i j hi hj b (kindAt_bit.2 ⟨e, he, hτ, hb⟩))

theorem syncCell_spec {g : Aug} {p : Phy} (w : GWf g) (pw : PWf p) {start i j : Nat} (hs : start + p.n ≤ g.n)
    (hi : i < p.n) (hj : j < p.n) :
    ∃ g' p', syncCell start i j g p = .ok (g', p') ∧ SyncR start (fun x => x = (i, j)) g p g' p' := by
  have hi' : start + i < g.n := by omega
  have hj' : start + j < g.n := by omega
  unfold syncCell
  simp only
  set kind := edgesetKind (g.cell (start + i) (start + j)) with hkind
  set s := mget p.n p.m i j with hsd
  by_cases h1 : atMost (indirect kind) s = false ∧ p.isFunc = false
  · rw [if_pos h1]
    obtain ⟨h1, hf⟩ := h1
    rw [atMost_false] at h1
    have hne : join (indirect kind) s ≠ s := by
      intro he
      apply h1
      rw [← he]; exact Le.join_left _ _
    rw [if_neg hne]
    have hg : ∀ a b, b < p.n → mget p.n (p.m.set (i * p.n + j) (join (indirect kind) s)) a b =
        if a = i ∧ b = j then join (indirect kind) s else mget p.n p.m a b := fun a b hb => mget_set pw hi hj hb
    have hij : mget p.n (p.m.set (i * p.n + j) (join (indirect kind) s)) i j = join (indirect kind) s := by
      rw [hg i j hj]; simp
    refine ⟨g, _, rfl, w, Step.refl g, ?_, ⟨rfl, rfl, rfl, ⟨by simp, ?_⟩⟩, fun _ => rfl, ?_, ?_,
      fun _ h => absurd (h hf _ rfl) h1, ?_, ?_⟩
    · unfold PWf; simp only [List.length_set]; exact pw
    · intro a b ha hb
      simp only
      rw [hg a b hb]
      split
      · rename_i h'; rw [h'.1, h'.2]; exact Le.join_right _ _
      · exact Le.refl _
    · rintro _ _ x rfl
      simp only
      rw [hij]; exact Le.join_left _ _
    · intro _ hp
      exfalso
      apply hne
      have : (p.m.set (i * p.n + j) (join (indirect kind) s)) = p.m := congrArg Phy.m hp
      rw [← hij, this]
    · intro _ hW
      have hw := hW _ rfl
      have hk0 : indirect kind ≠ 0 := by
        intro h0; apply h1; rw [h0]; exact Le.zero _
      have hs0 : s ≠ 0 := hw.1 hf hk0
      refine ⟨⟨⟨rfl, rfl, rfl, ⟨by simp, ?_⟩⟩, ?_⟩, ?_⟩
      · intro a b ha hb
        simp only
        rw [hg a b hb]
        split
        · rename_i h'; rw [h'.1, h'.2]; exact Le.join_right _ _
        · exact Le.refl _
      · intro a b ha hb
        simp only
        rw [hg a b hb]
        split
        · rename_i h'; rw [h'.1, h'.2]; exact fun _ => hs0
        · exact id
      · rintro x rfl _
        rcases hw.2 hs0 with h' | h' | h'
        · exact h'
        · rw [hf] at h'; cases h'
        · exact absurd h' h1
    · intro M N hC hB hN
      obtain ⟨c1, c2, c3⟩ := hC _ rfl
      simp only at c1 c2 c3
      refine ⟨hB, ?_⟩
      intro a b ha hb
      simp only at ha hb ⊢
      rw [hg a b hb]
      split
      · rename_i h'; rw [h'.1, h'.2]
        refine Le.join_le ?_ (hN i j hi hj)
        intro t ht
        rw [indirect_bit] at ht
        obtain ⟨e, he, hb⟩ := edgesetKind_bit.1 ht.1
        obtain ⟨τ, hτ⟩ := exists_sat (w.ok _ _ hi' hj' e he).2.2.1
        exact c3 hf τ t (indirect_bit.2 ⟨hB τ _ _ hi' hj' t (kindAt_bit.2 ⟨e, he, hτ, hb⟩), ht.2⟩)
      · exact hN a b ha hb
  · rw [if_neg h1]
    have hup : p.isFunc = false → Le (indirect kind) s := by
      intro hf
      by_contra hc
      exact h1 ⟨atMost_false.2 hc, hf⟩
    by_cases h2 : atMost s (edgesetLowerbound (g.cell (start + i) (start + j))) = false
    · rw [if_pos h2]
      rw [atMost_false] at h2
      have hs0 : join kind s ≠ 0 := by
        rw [join_ne_zero]
        right
        intro h0
        apply h2
        rw [h0]; exact Le.zero _
      have hok : (⟨0, 0⟩ : Cond).ok := by unfold Cond.ok; simp
      obtain ⟨g', e, w', st, ent, kd, hne⟩ := addEdgeToGraph_spec w hi' hj' hok hs0
      have hnent : ¬ Ent (g.cell (start + i) (start + j)) ⟨0, 0⟩ (join kind s) := by
        rintro ⟨x, hx, hc, hk⟩
        apply h2
        intro b hb
        rw [lowerbound_bit]
        refine ⟨x, hx, ?_, hk b (join_bit.2 (.inr hb))⟩
        refine Cond.sub_antisymm hc ?_
        intro t
        constructor <;> intro ht <;> simp at ht
      have hwl := hne hnent
      refine ⟨g', p, by rw [e]; rfl, w', st, pw, PLe.refl p, fun h => absurd h hwl, fun h => absurd h hwl,
        fun h => absurd h hwl, fun h => absurd h hwl, fun h => absurd h hwl, ?_⟩
      intro M N hC hB hN
      obtain ⟨c1, c2, c3⟩ := hC _ rfl
      simp only at c1 c2 c3
      refine ⟨?_, hN⟩
      intro σ a b ha hb t ht
      rw [st.n] at ha hb
      rcases (kd σ a b ha hb t).1 ht with h' | ⟨rfl, rfl, _, ht'⟩
      · exact hB σ a b ha hb t h'
      · rcases join_bit.1 ht' with h' | h'
        · refine edgesetKind_le w hi' hj' hB (c2 (le_ne_zero (hN i j hi hj) ?_)) σ t h'
          intro h0; apply h2; rw [hsd, h0]; exact Le.zero _
        · exact c1 σ t (hN i j hi hj t h')
    · rw [if_neg h2]
      rw [Bool.not_eq_false, atMost_iff] at h2
      refine ⟨g, p, rfl, w, Step.refl g, pw, PLe.refl p, fun _ => rfl, ?_, ?_, fun _ _ => rfl, ?_, fun M N _ hB hN => ⟨hB, hN⟩⟩
      · rintro _ hf x rfl; exact hup hf
      · rintro _ _ x rfl; exact h2
      · rintro _ _
        refine ⟨PZ.refl p, ?_⟩
        rintro x rfl hne
        exact le_ne_zero h2 hne

theorem SyncR.nil {g : Aug} {p : Phy} (w : GWf g) (pw : PWf p) (start : Nat) : SyncR start (fun _ => False) g p g p :=
  ⟨w, Step.refl g, pw, PLe.refl p, fun _ => rfl, by simp, by simp, fun _ _ => rfl,
    fun _ _ => ⟨PZ.refl p, by simp⟩, fun _ _ _ hB hN => ⟨hB, hN⟩⟩

theorem SyncR.trans' {start : Nat} {C1 C2 : Nat × Nat → Prop} {g g' g'' : Aug} {p p' p'' : Phy} (w : GWf g) (pw : PWf p)
    (hC1 : ∀ x, C1 x → x.1 < p.n ∧ x.2 < p.n) (hC2 : ∀ x, C2 x → x.1 < p.n ∧ x.2 < p.n)
    (h1 : SyncR start C1 g p g' p') (h2 : SyncR start C2 g' p' g'' p'') :
    SyncR start (fun x => C1 x ∨ C2 x) g p g'' p'' := by
  refine ⟨h2.wf, h1.step.trans' (wl_lt w) h2.step h1.wf, h2.pwf, h1.ple.trans' h2.ple, ?_, ?_, ?_, ?_, ?_, ?_⟩
  · intro he
    have h := h2.quiet he
    subst h
    exact h1.quiet he
  · intro he hf x hx
    have hq := h2.quiet he
    rcases hx with hx | hx
    · rw [hq] at he ⊢
      have := h1.up he hf x hx
      refine this.trans' ?_
      obtain ⟨b1, b2⟩ := hC1 x hx
      have := h2.ple.m.le x.1 x.2 (by rw [h1.ple.n]; exact b1) (by rw [h1.ple.n]; exact b2)
      rw [h2.ple.n]; exact this
    · exact h2.up he (by rw [h1.ple.isFunc]; exact hf) x hx
  · intro he hp x hx
    have hq := h2.quiet he
    have hp' : p' = p := h1.ple.antisymm pw (by have := h2.ple; rw [hp] at this; exact this)
    rcases hx with hx | hx
    · rw [hq] at he ⊢
      have := h1.down he hp' x hx
      rw [hp'] at this
      rw [hp]; exact this
    · exact h2.down he (by rw [hp, hp']) x hx
  · intro he hu
    have hq := h2.quiet he
    have hq1 := h1.quiet (hq ▸ he)
    have e1 := h1.still (hq ▸ he) (fun hf x hx => hu hf x (.inl hx))
    have e2 := h2.still he (by rw [hq1, e1]; exact fun hf x hx => hu hf x (.inr hx))
    rw [e2, e1]
  · intro he hW
    have hq := h2.quiet he
    have hq1 := h1.quiet (hq ▸ he)
    obtain ⟨z1, d1⟩ := h1.weak (hq ▸ he) (fun x hx => hW x (.inl hx))
    obtain ⟨z2, d2⟩ := h2.weak he (fun x hx => by
      rw [hq1]; exact (hW x (.inr hx)).mono z1.le (hC2 x hx).1 (hC2 x hx).2)
    refine ⟨z1.trans' z2, fun x hx => ?_⟩
    rcases hx with hx | hx
    · exact (d1 x hx).pz z2 (by rw [z1.le.n]; exact (hC1 x hx).1) (by rw [z1.le.n]; exact (hC1 x hx).2)
    · have := d2 x hx
      rw [hq1] at this; exact this
  · intro M N hC hB hN
    obtain ⟨b1, b2⟩ := h1.bound M N (fun x hx => hC x (.inl hx)) hB hN
    exact h2.bound M N (fun x hx => by rw [h1.ple.isFunc]; exact hC x (.inr hx)) b1 b2

theorem SyncR.congr {start : Nat} {C C' : Nat × Nat → Prop} {g g' : Aug} {p p' : Phy} (h : SyncR start C g p g' p')
    (hc : ∀ x, C' x ↔ C x) : SyncR start C' g p g' p' := by
  have : C' = C := funext fun x => propext (hc x)
  rw [this]; exact h

theorem syncRow_spec {start i : Nat} (js : List Nat) {g : Aug} {p : Phy} (w : GWf g) (pw : PWf p)
    (hs : start + p.n ≤ g.n) (hi : i < p.n) (hjs : ∀ j ∈ js, j < p.n) :
    ∃ g' p', syncRow start i js g p = .ok (g', p') ∧ SyncR start (fun x => x.1 = i ∧ x.2 ∈ js) g p g' p' := by
  induction js generalizing g p with
  | nil => exact ⟨g, p, rfl, (SyncR.nil w pw start).congr (by simp)⟩
  | cons j js ih =>
    obtain ⟨g1, p1, e1, r1⟩ := syncCell_spec w pw hs hi (hjs j (by simp))
    have hn := r1.ple.n
    have hg := r1.step.n
    obtain ⟨g2, p2, e2, r2⟩ := ih r1.wf r1.pwf (by omega) (by omega) (fun x hx => by rw [hn]; exact hjs x (by simp [hx]))
    refine ⟨g2, p2, by rw [syncRow, e1, Res.ok_bind, e2], (r1.trans' w pw ?_ ?_ r2).congr ?_⟩
    · rintro x rfl; exact ⟨hi, hjs j (by simp)⟩
    · rintro x ⟨rfl, hx⟩; exact ⟨hi, hjs _ (by simp [hx])⟩
    · rintro ⟨a, b⟩
      simp only [List.mem_cons, Prod.mk.injEq]
      tauto

theorem syncRows_spec {start : Nat} (is : List Nat) {g : Aug} {p : Phy} (w : GWf g) (pw : PWf p)
    (hs : start + p.n ≤ g.n) (his : ∀ i ∈ is, i < p.n) (hat : ∀ i, i < p.n → g.attrs[start + i]? = p.attrs[i]?) :
    ∃ g' p', syncRows start is g p = .ok (g', p') ∧ SyncR start (fun x => x.1 ∈ is ∧ x.2 < p.n) g p g' p' := by
  induction is generalizing g p with
  | nil => exact ⟨g, p, rfl, (SyncR.nil w pw start).congr (by simp)⟩
  | cons i is ih =>
    have hi := his i (by simp)
    obtain ⟨g1, p1, e1, r1⟩ := syncRow_spec (start := start) (i := i) (List.range p.n) w pw hs hi (by simp)
    have hn := r1.ple.n
    have hg := r1.step.n
    obtain ⟨g2, p2, e2, r2⟩ := ih r1.wf r1.pwf (by omega) (fun x hx => by rw [hn]; exact his x (by simp [hx]))
      (fun x hx => by rw [r1.step.attrs, r1.ple.attrs]; exact hat x (by omega))
    refine ⟨g2, p2, ?_, (r1.trans' w pw ?_ ?_ r2).congr ?_⟩
    · rw [syncRows, if_neg (by rw [hat i hi]; simp), e1, Res.ok_bind, e2]
    · rintro x ⟨rfl, hx⟩; exact ⟨hi, by simpa using hx⟩
    · rintro x ⟨hx, hy⟩; exact ⟨his _ (by simp [hx]), by rw [hn] at hy; exact hy⟩
    · rintro ⟨a, b⟩
      simp only [List.mem_cons, List.mem_range, hn]
      tauto

theorem synchronize_spec {start : Nat} {g : Aug} {p : Phy} (w : GWf g) (pw : PWf p)
    (hs : start + p.n ≤ g.n) (hat : ∀ i, i < p.n → g.attrs[start + i]? = p.attrs[i]?) :
    ∃ g' p', synchronize g start p = .ok (g', p') ∧ SyncR start (fun x => x.1 < p.n ∧ x.2 < p.n) g p g' p' := by
  obtain ⟨g', p', e, r⟩ := syncRows_spec (start := start) (List.range p.n) w pw hs (by simp) hat
  exact ⟨g', p', e, r.congr (by simp)⟩

/-! ### all links of a graph -/

/-- the list of summaries only grows -/
structure PsLe (ps ps' : List Phy) : Prop where
  len : ps'.length = ps.length
  le : ∀ (i : Nat) p, ps[i]? = some p → ∃ p', ps'[i]? = some p' ∧ PLe p p'

theorem PsLe.refl (ps : List Phy) : PsLe ps ps := ⟨rfl, fun _ p h => ⟨p, h, PLe.refl p⟩⟩
theorem PsLe.trans' {a b c : List Phy} (h1 : PsLe a b) (h2 : PsLe b c) : PsLe a c := by
  refine ⟨h2.len.trans h1.len, fun i p h => ?_⟩
  obtain ⟨p', e, l⟩ := h1.le i p h
  obtain ⟨p'', e', l'⟩ := h2.le i p' e
  exact ⟨p'', e', l.trans' l'⟩

def PsWf (ps : List Phy) : Prop := ∀ p ∈ ps, PWf p

theorem PsLe.antisymm {ps ps' : List Phy} (hw : PsWf ps) (h1 : PsLe ps ps') (h2 : PsLe ps' ps) : ps' = ps := by
  apply List.ext_getElem?
  intro i
  rcases h : ps[i]? with _ | p
  · rw [List.getElem?_eq_none_iff] at h ⊢; rw [h1.len]; exact h
  · obtain ⟨p', e', l⟩ := h1.le i p h
    obtain ⟨p'', e'', l'⟩ := h2.le i p' e'
    rw [h] at e''
    cases e''
    rw [e', l.antisymm (hw p (List.mem_of_getElem? h)) l']

/-- a link of a graph to a summary graph fits: in range and the same attributes in the same order -/
def LinkOk (g : Aug) (ps : List Phy) (l : Nat × Nat) : Prop :=
  ∃ p, ps[l.2]? = some p ∧ l.1 + p.n ≤ g.n ∧ ∀ i, i < p.n → g.attrs[l.1 + i]? = p.attrs[i]?

theorem LinkOk.mono {g g' : Aug} {ps ps' : List Phy} {l : Nat × Nat} (h : LinkOk g ps l) (hn : g'.n = g.n)
    (ha : g'.attrs = g.attrs) (hp : PsLe ps ps') : LinkOk g' ps' l := by
  obtain ⟨p, e, h1, h2⟩ := h
  obtain ⟨p', e', l⟩ := hp.le _ _ e
  refine ⟨p', e', by rw [l.n, hn]; exact h1, fun i hi => ?_⟩
  rw [ha, l.attrs]; exact h2 i (by rw [← l.n]; exact hi)

/-- the link's dependencies have been copied out of the graph into the summary -/
def UpOk (g : Aug) (ps : List Phy) (l : Nat × Nat) : Prop :=
  ∀ p, ps[l.2]? = some p → p.isFunc = false → ∀ i j, i < p.n → j < p.n →
    Le (indirect (edgesetKind (g.cell (l.1 + i) (l.1 + j)))) (mget p.n p.m i j)

/-- the summary has been copied into the graph at the link -/
def DownOk (g : Aug) (ps : List Phy) (l : Nat × Nat) : Prop :=
  ∀ p, ps[l.2]? = some p → ∀ i j, i < p.n → j < p.n →
    Le (mget p.n p.m i j) (edgesetLowerbound (g.cell (l.1 + i) (l.1 + j)))

theorem UpOk.mono {g : Aug} {ps ps' : List Phy} {l : Nat × Nat} (h : UpOk g ps l) (hp : PsLe ps ps') : UpOk g ps' l := by
  intro p' e' hf i j hi hj
  have hlt : l.2 < ps.length := by rw [← hp.len]; exact (List.getElem?_eq_some_iff.1 e').1
  obtain ⟨p, e⟩ : ∃ p, ps[l.2]? = some p := ⟨_, List.getElem?_eq_getElem hlt⟩
  obtain ⟨p'', e'', lp⟩ := hp.le _ _ e
  rw [e'] at e''
  cases e''
  rw [lp.n] at hi hj ⊢
  exact (h p e (by rw [← lp.isFunc]; exact hf) i j hi hj).trans' (lp.m.le i j hi hj)

/-- `WeakC` at all cells of a link -/
def Weak (g : Aug) (ps : List Phy) (l : Nat × Nat) : Prop :=
  ∀ p, ps[l.2]? = some p → ∀ i j, i < p.n → j < p.n → WeakC g p l.1 i j

/-- `Down0` at all cells of a link -/
def DownOk0 (g : Aug) (ps : List Phy) (l : Nat × Nat) : Prop :=
  ∀ p, ps[l.2]? = some p → ∀ i j, i < p.n → j < p.n → Down0 g p l.1 i j

/-- the summaries grow but not by new pairs -/
structure PsZ (ps ps' : List Phy) : Prop where
  len : ps'.length = ps.length
  z : ∀ (i : Nat) p, ps[i]? = some p → ∃ p', ps'[i]? = some p' ∧ PZ p p'

theorem PsZ.le {ps ps' : List Phy} (h : PsZ ps ps') : PsLe ps ps' :=
  ⟨h.len, fun i p e => by obtain ⟨p', e', z⟩ := h.z i p e; exact ⟨p', e', z.le⟩⟩

theorem PsZ.refl (ps : List Phy) : PsZ ps ps := ⟨rfl, fun _ p h => ⟨p, h, PZ.refl p⟩⟩
theorem PsZ.trans' {a b c : List Phy} (h1 : PsZ a b) (h2 : PsZ b c) : PsZ a c := by
  refine ⟨h2.len.trans h1.len, fun i p h => ?_⟩
  obtain ⟨p', e, l⟩ := h1.z i p h
  obtain ⟨p'', e', l'⟩ := h2.z i p' e
  exact ⟨p'', e', l.trans' l'⟩

theorem PsLe.back {ps ps' : List Phy} (h : PsLe ps ps') {i : Nat} {p' : Phy} (e' : ps'[i]? = some p') :
    ∃ p, ps[i]? = some p ∧ PLe p p' := by
  have hlt : i < ps.length := by rw [← h.len]; exact (List.getElem?_eq_some_iff.1 e').1
  obtain ⟨p'', e'', l⟩ := h.le _ _ (List.getElem?_eq_getElem hlt)
  rw [e'] at e''; cases e''
  exact ⟨_, List.getElem?_eq_getElem hlt, l⟩

theorem PsZ.back {ps ps' : List Phy} (h : PsZ ps ps') {i : Nat} {p' : Phy} (e' : ps'[i]? = some p') :
    ∃ p, ps[i]? = some p ∧ PZ p p' := by
  have hlt : i < ps.length := by rw [← h.len]; exact (List.getElem?_eq_some_iff.1 e').1
  obtain ⟨p'', e'', l⟩ := h.z _ _ (List.getElem?_eq_getElem hlt)
  rw [e'] at e''; cases e''
  exact ⟨_, List.getElem?_eq_getElem hlt, l⟩

theorem Weak.mono {g : Aug} {ps ps' : List Phy} {l : Nat × Nat} (h : Weak g ps l) (hp : PsLe ps ps') : Weak g ps' l := by
  intro p' e' i j hi hj
  obtain ⟨p, e, le⟩ := hp.back e'
  rw [le.n] at hi hj
  exact (h p e i j hi hj).mono le hi hj

theorem DownOk0.pz {g : Aug} {ps ps' : List Phy} {l : Nat × Nat} (h : DownOk0 g ps l) (hp : PsZ ps ps') : DownOk0 g ps' l := by
  intro p' e' i j hi hj
  obtain ⟨p, e, z⟩ := hp.back e'
  rw [z.le.n] at hi hj
  exact (h p e i j hi hj).pz z hi hj

theorem UpOk.weak {g : Aug} {ps : List Phy} {l : Nat × Nat} (h : UpOk g ps l) : Weak g ps l := by
  intro p e i j hi hj
  refine ⟨fun hf hk => le_ne_zero (h p e hf i j hi hj) hk, fun _ => ?_⟩
  cases hf : p.isFunc with
  | true => exact .inr (.inl rfl)
  | false => exact .inr (.inr (h p e hf i j hi hj))

/-- conditions on upper bounds for a link -/
def LinkBound (M : (Nat → Bool) → Nat → Nat → Dep) (N : Nat → Nat → Nat → Dep) (ps : List Phy) (l : Nat × Nat) : Prop :=
  ∀ p, ps[l.2]? = some p → ∀ i j, i < p.n → j < p.n → CellBound M (N l.2) p.isFunc l.1 i j

def PsBelow (ps : List Phy) (N : Nat → Nat → Nat → Dep) : Prop := ∀ (i : Nat) p, ps[i]? = some p → MBelow p.n p.m (N i)

theorem LinkBound.mono {M N} {ps ps' : List Phy} {l : Nat × Nat} (h : LinkBound M N ps l) (hp : PsLe ps ps') :
    LinkBound M N ps' l := by
  intro p' e' i j hi hj
  have hlt : l.2 < ps.length := by rw [← hp.len]; exact (List.getElem?_eq_some_iff.1 e').1
  obtain ⟨p, e⟩ : ∃ p, ps[l.2]? = some p := ⟨_, List.getElem?_eq_getElem hlt⟩
  obtain ⟨p'', e'', lp⟩ := hp.le _ _ e
  rw [e'] at e''
  cases e''
  rw [lp.n] at hi hj
  rw [lp.isFunc]
  exact h p e i j hi hj

/-- what copying along the links `ls` does -/
structure AugR (ls : List (Nat × Nat)) (g : Aug) (ps : List Phy) (g' : Aug) (ps' : List Phy) : Prop where
  wf : GWf g'
  step : Step g g'
  pwf : PsWf ps'
  ple : PsLe ps ps'
  quiet : g'.wl.list = [] → g' = g
  up : g'.wl.list = [] → ∀ l ∈ ls, UpOk g' ps' l
  down : g'.wl.list = [] → ps' = ps → ∀ l ∈ ls, DownOk g' ps' l
  still : g'.wl.list = [] → (∀ l ∈ ls, UpOk g ps l) → ps' = ps
  weak : g'.wl.list = [] → (∀ l ∈ ls, Weak g ps l) → PsZ ps ps' ∧ ∀ l ∈ ls, DownOk0 g ps' l
  bound : ∀ M N, (∀ l ∈ ls, LinkBound M N ps l) → Below M g → PsBelow ps N → Below M g' ∧ PsBelow ps' N

theorem psle_set {ps : List Phy} {i : Nat} {p p' : Phy} (h : ps[i]? = some p) (l : PLe p p') : PsLe ps (ps.set i p') := by
  refine ⟨by simp, fun j q hq => ?_⟩
  by_cases hij : i = j
  · subst hij
    rw [h] at hq; cases hq
    refine ⟨p', ?_, l⟩
    rw [List.getElem?_set_self (List.getElem?_eq_some_iff.1 h).1]
  · exact ⟨q, by rw [List.getElem?_set_ne hij]; exact hq, PLe.refl q⟩

theorem psz_set {ps : List Phy} {i : Nat} {p p' : Phy} (h : ps[i]? = some p) (l : PZ p p') : PsZ ps (ps.set i p') := by
  refine ⟨by simp, fun j q hq => ?_⟩
  by_cases hij : i = j
  · subst hij
    rw [h] at hq; cases hq
    refine ⟨p', ?_, l⟩
    rw [List.getElem?_set_self (List.getElem?_eq_some_iff.1 h).1]
  · exact ⟨q, by rw [List.getElem?_set_ne hij]; exact hq, PZ.refl q⟩

theorem augmentLinks_spec (ls : List (Nat × Nat)) {g : Aug} {ps : List Phy} (w : GWf g) (pw : PsWf ps)
    (hls : ∀ l ∈ ls, LinkOk g ps l) :
    ∃ g' ps', augmentLinks ls g ps = .ok (g', ps') ∧ AugR ls g ps g' ps' := by
  induction ls generalizing g ps with
  | nil => exact ⟨g, ps, rfl, w, Step.refl g, pw, PsLe.refl ps, fun _ => rfl, by simp, by simp, fun _ _ => rfl,
      fun _ _ => ⟨PsZ.refl ps, by simp⟩, fun _ _ _ h1 h2 => ⟨h1, h2⟩⟩
  | cons l ls ih =>
    obtain ⟨start, pi⟩ := l
    obtain ⟨p, ep, hs, hat⟩ := hls (start, pi) (by simp)
    simp only at ep hs hat
    have hlt := (List.getElem?_eq_some_iff.1 ep).1
    obtain ⟨g1, p1, e1, r1⟩ := synchronize_spec w (pw p (List.mem_of_getElem? ep)) hs hat
    have l1 : PsLe ps (ps.set pi p1) := psle_set ep r1.ple
    have ep1 : (ps.set pi p1)[pi]? = some p1 := List.getElem?_set_self hlt
    have pw1 : PsWf (ps.set pi p1) := by
      intro q hq
      rcases List.mem_or_eq_of_mem_set hq with h | rfl
      · exact pw q h
      · exact r1.pwf
    obtain ⟨g2, ps2, e2, r2⟩ := ih r1.wf pw1 (fun x hx => (hls x (by simp [hx])).mono r1.step.n r1.step.attrs l1)
    refine ⟨g2, ps2, ?_, r2.wf, r1.step.trans' (wl_lt w) r2.step r1.wf, r2.pwf, l1.trans' r2.ple, ?_, ?_, ?_, ?_, ?_, ?_⟩
    · rw [augmentLinks, ep]
      simp only
      rw [e1, Res.ok_bind, e2]
    · intro he
      have h := r2.quiet he
      subst h
      exact r1.quiet he
    · intro he l hl
      have hq := r2.quiet he
      rcases List.mem_cons.1 hl with rfl | hl
      · rw [hq] at he ⊢
        have : UpOk g1 (ps.set pi p1) (start, pi) := by
          intro q eq hf i j hi hj
          simp only at eq
          rw [ep1] at eq; cases eq
          rw [r1.ple.n] at hi hj
          exact r1.up he (by rw [← r1.ple.isFunc]; exact hf) (i, j) ⟨hi, hj⟩
        exact this.mono r2.ple
      · exact r2.up he l hl
    · intro he hp l hl
      have hq := r2.quiet he
      have hps : ps.set pi p1 = ps := l1.antisymm pw (by have := r2.ple; rw [hp] at this; exact this)
      have hp1 : p1 = p := by
        rw [hps, ep] at ep1
        cases ep1; rfl
      rcases List.mem_cons.1 hl with rfl | hl
      · rw [hq] at he ⊢
        intro q eq i j hi hj
        simp only at eq
        rw [hp, ep] at eq; cases eq
        have := r1.down he hp1 (i, j) ⟨hi, hj⟩
        rw [hp1] at this
        exact this
      · exact r2.down he (by rw [hp, hps]) l hl
    · intro he hu
      have hq := r2.quiet he
      have hq1 := r1.quiet (hq ▸ he)
      have e1 := r1.still (hq ▸ he) (fun hf x hx => hu (start, pi) (by simp) p ep hf x.1 x.2 hx.1 hx.2)
      have hps : ps.set pi p1 = ps := by
        rw [e1]
        apply List.ext_getElem?
        intro k
        by_cases hk : pi = k
        · subst hk; rw [List.getElem?_set_self hlt, ep]
        · rw [List.getElem?_set_ne hk]
      rw [r2.still he (by rw [hps, hq1]; exact fun l hl => hu l (by simp [hl])), hps]
    · intro he hW
      have hq := r2.quiet he
      have hq1 := r1.quiet (hq ▸ he)
      obtain ⟨z1, d1⟩ := r1.weak (hq ▸ he) (fun x hx => hW (start, pi) (by simp) p ep x.1 x.2 hx.1 hx.2)
      have zs : PsZ ps (ps.set pi p1) := psz_set ep z1
      obtain ⟨z2, d2⟩ := r2.weak he (fun l hl => by rw [hq1]; exact (hW l (by simp [hl])).mono l1)
      refine ⟨zs.trans' z2, fun l hl => ?_⟩
      rcases List.mem_cons.1 hl with rfl | hl
      · have : DownOk0 g (ps.set pi p1) (start, pi) := by
          intro q eq i j hi hj
          simp only at eq
          rw [ep1] at eq; cases eq
          rw [z1.le.n] at hi hj
          exact d1 (i, j) ⟨hi, hj⟩
        exact this.pz z2
      · have := d2 l hl
        rw [hq1] at this; exact this
    · intro M N hC hB hN
      obtain ⟨b1, b2⟩ := r1.bound M (N pi) (fun x hx => hC (start, pi) (by simp) p ep x.1 x.2 hx.1 hx.2) hB (hN pi p ep)
      refine r2.bound M N (fun l hl => (hC l (by simp [hl])).mono l1) b1 ?_
      intro i q hq
      by_cases hij : pi = i
      · subst hij
        rw [ep1] at hq; cases hq
        exact b2
      · rw [List.getElem?_set_ne hij] at hq
        exact hN i q hq

end Aps.Dnc

import Verif.Proofs.UnionFind
import Verif.Proofs.DncMain
/-! `make_cycles` of analyze/aps-cycle.c. -/
set_option linter.unusedVariables false
namespace Aps.Cycle
open Aps.Dnc

theorem mergeRow_spec (ord : Bool) {num b j : Nat} {q : Nat → Bool} {D : Nat → Prop} (ks : List Nat) {E : Nat → Nat → Prop} {P : Par}
    (h : Inv num D E P) (hj : b + j < num ∧ ¬ D (b + j))
    (hk : ∀ k ∈ ks, k ≠ j → q k = true → b + k < num ∧ ¬ D (b + k)) :
    ∃ P', mergeRow ord b j q ks P = .ok P' ∧
      Inv num D (fun x y => E x y ∨ ∃ k ∈ ks, k ≠ j ∧ q k = true ∧ x = b + j ∧ y = b + k) P' := by
  induction ks generalizing E P with
  | nil => exact ⟨P, rfl, h.congr (fun _ _ => Iff.rfl) (by simp)⟩
  | cons k ks ih =>
    by_cases hc : k ≠ j ∧ q k = true
    · obtain ⟨h1, h2⟩ := hk k (by simp) hc.1 hc.2
      obtain ⟨P1, e1, i1⟩ := h.merge ord hj.1 h1 hj.2 h2
      obtain ⟨P2, e2, i2⟩ := ih i1 (fun k hk' => hk k (by simp [hk']))
      refine ⟨P2, by rw [mergeRow, if_pos hc, e1]; exact e2, i2.congr (fun _ _ => Iff.rfl) ?_⟩
      intro x y
      simp only [List.mem_cons, exists_eq_or_imp, or_assoc]
      constructor
      · rintro (a | ⟨a, b, c⟩ | a)
        · exact .inl a
        · exact .inr (.inl c)
        · exact .inr (.inr a)
      · rintro (a | c | a)
        · exact .inl a
        · exact .inr (.inl ⟨hc.1, hc.2, c⟩)
        · exact .inr (.inr a)
    · obtain ⟨P2, e2, i2⟩ := ih h (fun k hk' => hk k (by simp [hk']))
      refine ⟨P2, by rw [mergeRow, if_neg hc]; exact e2, i2.congr (fun _ _ => Iff.rfl) ?_⟩
      intro x y
      simp only [List.mem_cons, exists_eq_or_imp]
      constructor
      · rintro (a | ⟨a, b, _⟩ | a)
        · exact .inl a
        · exact absurd ⟨a, b⟩ hc
        · exact .inr a
      · rintro (a | a)
        · exact .inl a
        · exact .inr (.inr a)

theorem mergeRows_spec (ord : Bool) {num b n : Nat} {d : Nat → Bool} {q : Nat → Nat → Bool} (hbn : b + n ≤ num)
    (hq : ∀ j k, j < n → k < n → d j = true → q j k = true → d k = true)
    (js : List Nat) (hjs : ∀ j ∈ js, j < n) {D : Nat → Prop} {E : Nat → Nat → Prop} {P : Par}
    (h : Inv num D E P) (hD : ∀ k, k < n → D (b + k) → d k = false)
    (hE : ∀ k, k < n → ∀ x, (E (b + k) x ∨ E x (b + k)) → d k = true) :
    ∃ P', mergeRows ord b n d q js P = .ok P' ∧
      Inv num (fun x => D x ∨ ∃ j ∈ js, d j = false ∧ x = b + j)
        (fun x y => E x y ∨ ∃ j ∈ js, d j = true ∧ ∃ k, k < n ∧ k ≠ j ∧ q j k = true ∧ x = b + j ∧ y = b + k) P' := by
  induction js generalizing D E P with
  | nil => exact ⟨P, rfl, h.congr (by simp) (by simp)⟩
  | cons j js ih =>
    have hjn := hjs j (by simp)
    cases hd : d j with
    | false =>
      have i1 := h.kill (a := b + j) (fun x hx => by rw [hE j hjn x (.inl hx)] at hd; cases hd)
        (fun x hx => by rw [hE j hjn x (.inr hx)] at hd; cases hd)
      obtain ⟨P2, e2, i2⟩ := ih (fun j hj => hjs j (by simp [hj])) i1
        (by
          rintro k hk (a | a)
          · exact hD k hk a
          · have : k = j := by omega
            subst this; exact hd) hE
      refine ⟨P2, by rw [mergeRows, if_pos hd]; exact e2, i2.congr ?_ ?_⟩
      · intro x hx
        simp only [List.mem_cons, exists_eq_or_imp, hd, true_and, or_assoc]
      · intro x y
        simp only [List.mem_cons, exists_eq_or_imp, hd]
        simp
    | true =>
      have hjD : ¬ D (b + j) := fun hx => by rw [hD j hjn hx] at hd; cases hd
      obtain ⟨P1, e1, i1⟩ := mergeRow_spec ord (q := q j) (List.range n) h ⟨by omega, hjD⟩ (by
        intro k hk hne hqk
        have hk := List.mem_range.1 hk
        refine ⟨by omega, fun hx => ?_⟩
        have := hq j k hjn hk hd hqk
        rw [hD k hk hx] at this; cases this)
      obtain ⟨P2, e2, i2⟩ := ih (fun j hj => hjs j (by simp [hj])) i1 hD (by
        rintro k hk x ((a | ⟨k', hk', hne, hqk, a, c⟩) | (a | ⟨k', hk', hne, hqk, a, c⟩))
        · exact hE k hk x (.inl a)
        · have : k = j := by omega
          subst this; exact hd
        · exact hE k hk x (.inr a)
        · have : k = k' := by omega
          subst this; exact hq j k hjn hk hd hqk)
      refine ⟨P2, by rw [mergeRows, if_neg (by simp [hd]), e1]; exact e2, i2.congr ?_ ?_⟩
      · intro x hx
        simp only [List.mem_cons, exists_eq_or_imp, hd]
        simp
      · intro x y
        simp only [List.mem_cons, exists_eq_or_imp, hd, true_and, List.mem_range, or_assoc]

/-! ### layout -/

theorem starts_ge {ns : List Nat} {b i s : Nat} (h : (starts ns b).1[i]? = some s) : b ≤ s := by
  induction ns generalizing b i with
  | nil => simp [starts] at h
  | cons n ns ih =>
    cases i with
    | zero => simp [starts] at h; omega
    | succ i => simp [starts] at h; have := ih h; omega

theorem starts_end {ns : List Nat} {b i s n : Nat} (h : (starts ns b).1[i]? = some s) (hn : ns[i]? = some n) :
    s + n ≤ (starts ns b).2 := by
  have tot : ∀ (ns : List Nat) b, b ≤ (starts ns b).2 := by
    intro ns
    induction ns with
    | nil => intro b; exact le_refl _
    | cons n ns ih => intro b; exact le_trans (Nat.le_add_right b n) (ih (b + n))
  induction ns generalizing b i with
  | nil => simp [starts] at h
  | cons m ns ih =>
    cases i with
    | zero => simp [starts] at h hn; subst h hn; exact tot ns _
    | succ i => simp [starts] at h hn; exact ih h hn

theorem starts_length (ns : List Nat) (b : Nat) : (starts ns b).1.length = ns.length := by
  induction ns generalizing b with
  | nil => rfl
  | cons n ns ih => simp [starts, ih]

theorem starts_apart {ns : List Nat} {b i j s t n : Nat} (hij : i < j) (hi : (starts ns b).1[i]? = some s) (hn : ns[i]? = some n)
    (hj : (starts ns b).1[j]? = some t) : s + n ≤ t := by
  induction ns generalizing b i j with
  | nil => simp [starts] at hi
  | cons m ns ih =>
    obtain ⟨j, rfl⟩ : ∃ j', j = j' + 1 := ⟨j - 1, by omega⟩
    simp [starts] at hj
    cases i with
    | zero => simp [starts] at hi hn; subst hi hn; exact starts_ge hj
    | succ i => simp [starts] at hi hn; exact ih (by omega) hi hn hj

/-! ### make_cycles -/

/-- What makes the merges of `make_cycles` legal: whatever is merged depends on itself. -/
structure CycOk (s : State) : Prop where
  phy : ∀ p ∈ s.phys, ∀ j k, j < p.n → k < p.n → phyBoth p j k = true → phyDep p k = true
  aug : ∀ g ∈ s.augs, ∀ j k, j < g.n → k < g.n → augBoth g j k = true → augDep g k = true
  link : ∀ g ∈ s.augs, ∀ l ∈ g.links, ∃ p, s.phys[l.2]? = some p ∧ l.1 + p.n ≤ g.n ∧
    ∀ k, k < p.n → phyDep p k = true → augDep g (l.1 + k) = true

theorem phyCycles_spec (ord : Bool) {num : Nat} (ps : List Phy) (b : Nat)
    (hp : ∀ p ∈ ps, ∀ j k, j < p.n → k < p.n → phyBoth p j k = true → phyDep p k = true)
    (hnum : (starts (ps.map (·.n)) b).2 ≤ num) {D : Nat → Prop} {E : Nat → Nat → Prop} {P : Par} (h : Inv num D E P)
    (hD : ∀ x, D x → x < b) (hE : ∀ x y, E x y → x < b ∧ y < b) :
    ∃ P', phyCycles ord ps (starts (ps.map (·.n)) b).1 P = .ok P' ∧
      Inv num (fun x => D x ∨ ∃ (i : Nat) (p : Phy) (s : Nat), ps[i]? = some p ∧ (starts (ps.map (·.n)) b).1[i]? = some s ∧
          ∃ j, j < p.n ∧ phyDep p j = false ∧ x = s + j)
        (fun x y => E x y ∨ ∃ (i : Nat) (p : Phy) (s : Nat), ps[i]? = some p ∧ (starts (ps.map (·.n)) b).1[i]? = some s ∧
          ∃ j, j < p.n ∧ phyDep p j = true ∧ ∃ k, k < p.n ∧ k ≠ j ∧ phyBoth p j k = true ∧ x = s + j ∧ y = s + k) P' := by
  induction ps generalizing b D E P with
  | nil => exact ⟨P, rfl, h.congr (by simp) (by simp)⟩
  | cons p ps ih =>
    simp only [List.map_cons, starts] at hnum ⊢
    have tot : b + p.n ≤ (starts (ps.map (·.n)) (b + p.n)).2 := by
      have : ∀ (ns : List Nat) b, b ≤ (starts ns b).2 := by
        intro ns
        induction ns with
        | nil => intro b; exact le_refl _
        | cons n ns ih => intro b; exact le_trans (Nat.le_add_right b n) (ih (b + n))
      exact this _ _
    obtain ⟨P1, e1, i1⟩ := mergeRows_spec ord (b := b) (n := p.n) (d := phyDep p) (q := phyBoth p) (by omega)
      (fun j k hj hk _ => hp p (by simp) j k hj hk) (List.range p.n) (fun j hj => List.mem_range.1 hj) h
      (fun k hk hx => by have := hD _ hx; omega)
      (fun k hk x hx => by rcases hx with hx | hx <;> have := hE _ _ hx <;> omega)
    obtain ⟨P2, e2, i2⟩ := ih (b + p.n) (fun q hq => hp q (by simp [hq])) hnum i1
      (by
        rintro x (hx | ⟨j, hj, _, rfl⟩)
        · have := hD _ hx; omega
        · have := List.mem_range.1 hj; omega)
      (by
        rintro x y (hx | ⟨j, hj, _, k, hk, _, _, rfl, rfl⟩)
        · have := hE _ _ hx; omega
        · have := List.mem_range.1 hj; omega)
    refine ⟨P2, ?_, i2.congr ?_ ?_⟩
    · simp only [phyCycles, e1]; exact e2
    · intro x hx
      constructor
      · rintro (a | ⟨i, q, s, h1, h2, h3⟩)
        · exact .inl (.inl a)
        · cases i with
          | zero =>
            simp at h1 h2; subst h1 h2
            obtain ⟨j, hj, r⟩ := h3
            exact .inl (.inr ⟨j, List.mem_range.2 hj, r⟩)
          | succ i => exact .inr ⟨i, q, s, by simpa using h1, by simpa using h2, h3⟩
      · rintro ((a | ⟨j, hj, r⟩) | ⟨i, q, s, h1, h2, h3⟩)
        · exact .inl a
        · exact .inr ⟨0, p, b, rfl, rfl, j, List.mem_range.1 hj, r⟩
        · exact .inr ⟨i + 1, q, s, by simpa using h1, by simpa using h2, h3⟩
    · intro x y
      constructor
      · rintro (a | ⟨i, q, s, h1, h2, h3⟩)
        · exact .inl (.inl a)
        · cases i with
          | zero =>
            simp at h1 h2; subst h1 h2
            obtain ⟨j, hj, r⟩ := h3
            exact .inl (.inr ⟨j, List.mem_range.2 hj, r⟩)
          | succ i => exact .inr ⟨i, q, s, by simpa using h1, by simpa using h2, h3⟩
      · rintro ((a | ⟨j, hj, r⟩) | ⟨i, q, s, h1, h2, h3⟩)
        · exact .inl a
        · exact .inr ⟨0, p, b, rfl, rfl, j, List.mem_range.1 hj, r⟩
        · exact .inr ⟨i + 1, q, s, by simpa using h1, by simpa using h2, h3⟩

theorem linkInsts_spec (ord : Bool) {num b pb start : Nat} {p : Phy} (is : List Nat) {D : Nat → Prop} {E : Nat → Nat → Prop} {P : Par}
    (h : Inv num D E P)
    (hk : ∀ i ∈ is, phyDep p i = true → (b + (start + i) < num ∧ ¬ D (b + (start + i))) ∧ pb + i < num ∧ ¬ D (pb + i)) :
    ∃ P', linkInsts ord b pb start p is P = .ok P' ∧
      Inv num D (fun x y => E x y ∨ ∃ i ∈ is, phyDep p i = true ∧ x = b + (start + i) ∧ y = pb + i) P' := by
  induction is generalizing E P with
  | nil => exact ⟨P, rfl, h.congr (fun _ _ => Iff.rfl) (by simp)⟩
  | cons i is ih =>
    by_cases hc : mget p.n p.m i i ≠ 0
    · have hd : phyDep p i = true := by simpa [phyDep] using hc
      obtain ⟨⟨h1, h2⟩, h3, h4⟩ := hk i (by simp) hd
      obtain ⟨P1, e1, i1⟩ := h.merge ord h1 h3 h2 h4
      obtain ⟨P2, e2, i2⟩ := ih i1 (fun k hk' => hk k (by simp [hk']))
      refine ⟨P2, by rw [linkInsts, if_pos hc, e1]; exact e2, i2.congr (fun _ _ => Iff.rfl) ?_⟩
      intro x y
      simp only [List.mem_cons, exists_eq_or_imp, or_assoc, hd, true_and]
    · have hd : phyDep p i = false := by simpa [phyDep] using hc
      obtain ⟨P2, e2, i2⟩ := ih h (fun k hk' => hk k (by simp [hk']))
      refine ⟨P2, by rw [linkInsts, if_neg hc]; exact e2, i2.congr (fun _ _ => Iff.rfl) ?_⟩
      intro x y
      simp only [List.mem_cons, exists_eq_or_imp, hd]
      simp

theorem linkNodes_spec (ord : Bool) {num b : Nat} {ps : List Phy} {pbs : List Nat} (ls : List (Nat × Nat)) {D : Nat → Prop}
    {E : Nat → Nat → Prop} {P : Par} (h : Inv num D E P)
    (hl : ∀ l ∈ ls, ∃ p pb, ps[l.2]? = some p ∧ pbs[l.2]? = some pb ∧ ∀ i, i < p.n → phyDep p i = true →
      (b + (l.1 + i) < num ∧ ¬ D (b + (l.1 + i))) ∧ pb + i < num ∧ ¬ D (pb + i)) :
    ∃ P', linkNodes ord ps pbs b ls P = .ok P' ∧
      Inv num D (fun x y => E x y ∨ ∃ l ∈ ls, ∃ p pb, ps[l.2]? = some p ∧ pbs[l.2]? = some pb ∧
        ∃ i, i < p.n ∧ phyDep p i = true ∧ x = b + (l.1 + i) ∧ y = pb + i) P' := by
  induction ls generalizing E P with
  | nil => exact ⟨P, rfl, h.congr (fun _ _ => Iff.rfl) (by simp)⟩
  | cons l ls ih =>
    obtain ⟨st, pi⟩ := l
    obtain ⟨p, pb, h1, h2, h3⟩ := hl _ (List.mem_cons_self ..)
    simp only at h1 h2 h3
    obtain ⟨P1, e1, i1⟩ := linkInsts_spec ord (b := b) (pb := pb) (start := st) (p := p) (List.range p.n) h
      (fun i hi hd => h3 i (List.mem_range.1 hi) hd)
    obtain ⟨P2, e2, i2⟩ := ih i1 (fun l hl' => hl l (by simp [hl']))
    refine ⟨P2, by simp only [linkNodes, h1, h2, e1]; exact e2, i2.congr (fun _ _ => Iff.rfl) ?_⟩
    intro x y
    simp only [List.mem_cons, exists_eq_or_imp, or_assoc, h1, h2, Option.some.injEq, List.mem_range]
    constructor
    · rintro (a | ⟨_, _, rfl, rfl, a⟩ | a)
      · exact .inl a
      · exact .inr (.inl a)
      · exact .inr (.inr a)
    · rintro (a | a | a)
      · exact .inl a
      · exact .inr (.inl ⟨_, _, rfl, rfl, a⟩)
      · exact .inr (.inr a)

theorem augCycles_spec (ord : Bool) {num : Nat} {ps : List Phy} {pbs : List Nat} (gs : List Aug) (b : Nat)
    (hg : ∀ g ∈ gs, ∀ j k, j < g.n → k < g.n → augBoth g j k = true → augDep g k = true)
    (hnum : (starts (gs.map (·.n)) b).2 ≤ num) {D : Nat → Prop} {E : Nat → Nat → Prop} {P : Par} (h : Inv num D E P)
    (hD : ∀ x, D x → x < b) (hE : ∀ x y, E x y → x < b ∧ y < b)
    (hl : ∀ g ∈ gs, ∀ l ∈ g.links, ∃ p pb, ps[l.2]? = some p ∧ pbs[l.2]? = some pb ∧ l.1 + p.n ≤ g.n ∧ ∀ i, i < p.n → phyDep p i = true →
      augDep g (l.1 + i) = true ∧ pb + i < b ∧ ¬ D (pb + i)) :
    ∃ P', augCycles ord ps pbs gs (starts (gs.map (·.n)) b).1 P = .ok P' ∧
      Inv num (fun x => D x ∨ ∃ (i : Nat) (g : Aug) (s : Nat), gs[i]? = some g ∧ (starts (gs.map (·.n)) b).1[i]? = some s ∧
          ∃ j, j < g.n ∧ augDep g j = false ∧ x = s + j)
        (fun x y => E x y ∨ ∃ (i : Nat) (g : Aug) (s : Nat), gs[i]? = some g ∧ (starts (gs.map (·.n)) b).1[i]? = some s ∧
          ((∃ j, j < g.n ∧ augDep g j = true ∧ ∃ k, k < g.n ∧ k ≠ j ∧ augBoth g j k = true ∧ x = s + j ∧ y = s + k) ∨
           ∃ l ∈ g.links, ∃ p pb, ps[l.2]? = some p ∧ pbs[l.2]? = some pb ∧
            ∃ i, i < p.n ∧ phyDep p i = true ∧ x = s + (l.1 + i) ∧ y = pb + i)) P' := by
  induction gs generalizing b D E P with
  | nil => exact ⟨P, rfl, h.congr (by simp) (by simp)⟩
  | cons g gs ih =>
    simp only [List.map_cons, starts] at hnum ⊢
    have tot : b + g.n ≤ (starts (gs.map (·.n)) (b + g.n)).2 := by
      have : ∀ (ns : List Nat) b, b ≤ (starts ns b).2 := by
        intro ns
        induction ns with
        | nil => intro b; exact le_refl _
        | cons n ns ih => intro b; exact le_trans (Nat.le_add_right b n) (ih (b + n))
      exact this _ _
    obtain ⟨P1, e1, i1⟩ := mergeRows_spec ord (b := b) (n := g.n) (d := augDep g) (q := augBoth g) (by omega)
      (fun j k hj hk _ => hg g (by simp) j k hj hk) (List.range g.n) (fun j hj => List.mem_range.1 hj) h
      (fun k hk hx => by have := hD _ hx; omega)
      (fun k hk x hx => by rcases hx with hx | hx <;> have := hE _ _ hx <;> omega)
    obtain ⟨P2, e2, i2⟩ := linkNodes_spec ord (b := b) (ps := ps) (pbs := pbs) g.links i1 (by
      intro l hlm
      obtain ⟨p, pb, h1, h2, h3, h4⟩ := hl g (by simp) l hlm
      refine ⟨p, pb, h1, h2, fun i hi hd => ?_⟩
      obtain ⟨h5, h6, h7⟩ := h4 i hi hd
      refine ⟨⟨by omega, ?_⟩, by omega, ?_⟩
      · rintro (hx | ⟨j, hj, hdj, e⟩)
        · have := hD _ hx; omega
        · have : j = l.1 + i := by omega
          subst this; rw [h5] at hdj; cases hdj
      · rintro (hx | ⟨j, hj, hdj, e⟩)
        · exact h7 hx
        · omega)
    obtain ⟨P3, e3, i3⟩ := ih (b + g.n) (fun q hq => hg q (by simp [hq])) hnum i2
      (by
        rintro x (hx | ⟨j, hj, _, rfl⟩)
        · have := hD _ hx; omega
        · have := List.mem_range.1 hj; omega)
      (by
        rintro x y ((hx | ⟨j, hj, _, k, hk, _, _, rfl, rfl⟩) | ⟨l, hlm, p, pb, h1, h2, i, hi, hd, rfl, rfl⟩)
        · have := hE _ _ hx; omega
        · have := List.mem_range.1 hj; omega
        · obtain ⟨p', pb', h1', h2', h3, h4⟩ := hl g (by simp) l hlm
          rw [h1] at h1'; rw [h2] at h2'; cases h1'; cases h2'
          obtain ⟨h5, h6, h7⟩ := h4 i hi hd
          omega)
      (by
        intro g' hg' l hlm
        obtain ⟨p, pb, h1, h2, h3, h4⟩ := hl g' (by simp [hg']) l hlm
        refine ⟨p, pb, h1, h2, h3, fun i hi hd => ?_⟩
        obtain ⟨h5, h6, h7⟩ := h4 i hi hd
        refine ⟨h5, by omega, ?_⟩
        rintro (hx | ⟨j, hj, hdj, e⟩)
        · exact h7 hx
        · omega)
    refine ⟨P3, ?_, i3.congr ?_ ?_⟩
    · simp only [augCycles, e1, Res.ok_bind, e2]; exact e3
    · intro x hx
      constructor
      · rintro (a | ⟨i, q, s, h1, h2, h3⟩)
        · exact .inl (.inl a)
        · cases i with
          | zero =>
            simp at h1 h2; subst h1 h2
            obtain ⟨j, hj, r⟩ := h3
            exact .inl (.inr ⟨j, List.mem_range.2 hj, r⟩)
          | succ i => exact .inr ⟨i, q, s, by simpa using h1, by simpa using h2, h3⟩
      · rintro ((a | ⟨j, hj, r⟩) | ⟨i, q, s, h1, h2, h3⟩)
        · exact .inl a
        · exact .inr ⟨0, g, b, rfl, rfl, j, List.mem_range.1 hj, r⟩
        · exact .inr ⟨i + 1, q, s, by simpa using h1, by simpa using h2, h3⟩
    · intro x y
      constructor
      · rintro (a | ⟨i, q, s, h1, h2, h3⟩)
        · exact .inl (.inl (.inl a))
        · cases i with
          | zero =>
            simp at h1 h2; subst h1 h2
            rcases h3 with ⟨j, hj, r⟩ | h3
            · exact .inl (.inl (.inr ⟨j, List.mem_range.2 hj, r⟩))
            · exact .inl (.inr h3)
          | succ i => exact .inr ⟨i, q, s, by simpa using h1, by simpa using h2, h3⟩
      · rintro (((a | ⟨j, hj, r⟩) | h3) | ⟨i, q, s, h1, h2, h3⟩)
        · exact .inl a
        · exact .inr ⟨0, g, b, rfl, rfl, .inl ⟨j, List.mem_range.1 hj, r⟩⟩
        · exact .inr ⟨0, g, b, rfl, rfl, .inr h3⟩
        · exact .inr ⟨i + 1, q, s, by simpa using h1, by simpa using h2, h3⟩

end Aps.Cycle

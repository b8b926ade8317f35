import Verif.Proofs.SccClose
import Mathlib.Data.List.Nodup
import Mathlib.Data.List.Perm.Basic
/-! The two depth-first searches of scc.c on a transitively closed graph. -/
namespace Aps.Scc

theorem mem_neighbors {n : Nat} {adj : List Bool} {i j : Nat} :
    j ∈ neighbors n adj i ↔ j < n ∧ containsEdge n adj i j = true := by
  unfold neighbors
  have key : ∀ (l acc : List Nat), j ∈ l.foldl (fun acc j => if containsEdge n adj i j then j :: acc else acc) acc ↔
      j ∈ acc ∨ (j ∈ l ∧ containsEdge n adj i j = true) := by
    intro l
    induction l with
    | nil => simp
    | cons x l ih =>
      intro acc
      rw [List.foldl_cons, ih]
      by_cases hx : containsEdge n adj i x = true
      · simp only [hx, if_true, List.mem_cons]
        constructor
        · rintro ((rfl | h) | h)
          · exact .inr ⟨.inl rfl, hx⟩
          · exact .inl h
          · exact .inr ⟨.inr h.1, h.2⟩
        · rintro (h | ⟨rfl | h, e⟩)
          · exact .inl (.inr h)
          · exact .inl (.inl rfl)
          · exact .inr ⟨h, e⟩
      · simp only [hx, List.mem_cons]
        constructor
        · rintro (h | h)
          · exact .inl (by simpa using h)
          · exact .inr ⟨.inr h.1, h.2⟩
        · rintro (h | ⟨rfl | h, e⟩)
          · exact .inl (by simpa using h)
          · exact absurd e hx
          · exact .inr ⟨h, e⟩
  rw [key]; simp

theorem flag_set {a : List Bool} {v i : Nat} (hv : v < a.length) :
    flag (a.set v true) i = true ↔ i = v ∨ flag a i = true := by
  unfold flag
  by_cases h : v = i
  · subst h; simp [hv]
  · rw [List.getElem?_set_ne h]; simp [Ne.symm h]

/-- number of unvisited vertices -/
def unvis (a : List Bool) : Nat := a.count false

theorem unvis_set {a : List Bool} {v : Nat} (hv : v < a.length) (h : flag a v = false) :
    unvis (a.set v true) + 1 = unvis a := by
  unfold unvis flag at *
  induction a generalizing v with
  | nil => simp at hv
  | cons b a ih =>
    cases v with
    | zero => simp at h; simp [h]
    | succ v =>
      have := ih (v := v) (by simpa using hv) (by simpa using h)
      simp only [List.set_cons_succ, List.count_cons]
      omega

section dfs
variable (n : Nat) (E : Nat → Nat → Prop)

/-- Invariant of the first search: `G` are the active vertices, the stack holds the finished ones. -/
structure DInv (G : List Nat) (s : Dfs) : Prop where
  len : s.visited.length = n
  vis : ∀ x, flag s.visited x = true ↔ x ∈ s.stack ∨ x ∈ G
  nd : s.stack.Nodup
  disj : ∀ x ∈ s.stack, x ∉ G
  out : ∀ x ∈ s.stack, ∀ y, E x y → flag s.visited y = true
  back : ∀ x ∈ s.stack, ∀ y ∈ G, E x y → E y x
  order : s.stack.Pairwise (fun v u => E u v → E v u)

/-- The effect of a search. -/
structure DPost (G : List Nat) (s s' : Dfs) : Prop where
  inv : DInv n E G s'
  mono : ∀ x, flag s.visited x = true → flag s'.visited x = true
  cnt : unvis s'.visited ≤ unvis s.visited

variable {n E}

theorem flag_lt {a : List Bool} {i : Nat} (h : flag a i = true) : i < a.length := by
  by_contra hc
  unfold flag at h
  rw [List.getElem?_eq_none (by omega)] at h
  simp at h

theorem dfs_spec (nb : Nat → List Nat) (hnb : ∀ i j, i < n → (j ∈ nb i ↔ E i j)) (hE : ∀ i j, E i j → i < n ∧ j < n)
    (htr : ∀ a b c, E a b → E b c → E a c) (fuel : Nat) :
    ∀ (s : Dfs) (G : List Nat) (v : Nat), DInv n E G s → v < n → flag s.visited v = false →
      (∀ y ∈ G, E y v) → unvis s.visited ≤ fuel →
      ∃ s', dfs nb fuel s v = .ok s' ∧ DPost n E G s s' ∧ v ∈ s'.stack := by
  induction fuel with
  | zero =>
    intro s G v inv hv hf _ hu
    have := unvis_set (a := s.visited) (v := v) (by rw [inv.len]; exact hv) hf
    omega
  | succ fuel ih =>
    intro s G v inv hv hf hG hu
    have hvl : v < s.visited.length := by rw [inv.len]; exact hv
    have hcnt := unvis_set hvl hf
    have hvS : v ∉ s.stack := fun h => by
      have := (inv.vis v).2 (.inl h); rw [hf] at this; cases this
    have hvG : v ∉ G := fun h => by
      have := (inv.vis v).2 (.inr h); rw [hf] at this; cases this
    -- state after marking v
    have inv1 : DInv n E (v :: G) { s with visited := s.visited.set v true } := by
      refine ⟨by simp [inv.len], fun x => ?_, inv.nd, fun x hx hm => ?_, fun x hx y hxy => ?_, fun x hx y hy hxy => ?_, inv.order⟩
      · rw [flag_set hvl, inv.vis]; simp only [List.mem_cons]; tauto
      · rcases List.mem_cons.1 hm with rfl | hm
        · exact hvS hx
        · exact inv.disj x hx hm
      · exact (flag_set hvl).2 (.inr (inv.out x hx y hxy))
      · rcases List.mem_cons.1 hy with rfl | hy
        · have := inv.out x hx y hxy
          rw [hf] at this; cases this
        · exact inv.back x hx y hy hxy
    -- the loop over a list of neighbours
    have loop : ∀ (us : List Nat) (s1 : Dfs), (∀ u ∈ us, E v u) → DInv n E (v :: G) s1 → unvis s1.visited ≤ fuel →
        ∃ s2, dfsList (dfs nb fuel) us s1 = .ok s2 ∧ DPost n E (v :: G) s1 s2 ∧ ∀ u ∈ us, flag s2.visited u = true := by
      intro us
      induction us with
      | nil =>
        intro s1 _ i1 _
        exact ⟨s1, rfl, ⟨i1, fun _ h => h, le_rfl⟩, by simp⟩
      | cons u us ihl =>
        intro s1 hus i1 hc
        rw [dfsList]
        have hvu := hus u (by simp)
        by_cases hfu : flag s1.visited u = false
        · obtain ⟨s2, e2, p2, m2⟩ := ih s1 (v :: G) u i1 (hE _ _ hvu).2 hfu (fun y hy => by
            rcases List.mem_cons.1 hy with rfl | hy
            · exact hvu
            · exact htr _ _ _ (hG y hy) hvu) hc
          obtain ⟨s3, e3, p3, m3⟩ := ihl s2 (fun w hw => hus w (by simp [hw])) p2.inv (by have := p2.cnt; omega)
          refine ⟨s3, by simp only [hfu, if_true, e2, Res.ok_bind, e3], ⟨p3.inv, fun x hx => p3.mono x (p2.mono x hx), p3.cnt.trans p2.cnt⟩, ?_⟩
          intro w hw
          rcases List.mem_cons.1 hw with rfl | hw
          · exact p3.mono _ ((p2.inv.vis _).2 (.inl m2))
          · exact m3 w hw
        · obtain ⟨s3, e3, p3, m3⟩ := ihl s1 (fun w hw => hus w (by simp [hw])) i1 hc
          refine ⟨s3, by rw [if_neg hfu]; exact e3, p3, ?_⟩
          intro w hw
          rcases List.mem_cons.1 hw with rfl | hw
          · exact p3.mono _ (by simpa using hfu)
          · exact m3 w hw
    obtain ⟨s2, e2, p2, m2⟩ := loop (nb v) _ (fun u hu => (hnb v u hv).1 hu) inv1 (by simp only; omega)
    have i2 := p2.inv
    have hvS2 : v ∉ s2.stack := fun h => i2.disj v h (by simp)
    refine ⟨{ s2 with stack := stackPush s2.stack v }, ?_, ⟨⟨i2.len, fun x => ?_, ?_, fun x hx hm => ?_, fun x hx y hxy => ?_, fun x hx y hy hxy => ?_, ?_⟩, fun x hx => ?_, ?_⟩, ?_⟩
    · rw [dfs]; simp only [e2, Res.ok_bind, Res.pure_eq]
    · simp only [stackPush, List.mem_cons, i2.vis]; tauto
    · simp only [stackPush, List.nodup_cons]; exact ⟨hvS2, i2.nd⟩
    · simp only [stackPush, List.mem_cons] at hx
      rcases hx with rfl | hx
      · exact hvG hm
      · exact i2.disj x hx (by simp [hm])
    · simp only [stackPush, List.mem_cons] at hx
      rcases hx with rfl | hx
      · exact m2 y ((hnb x y hv).2 hxy)
      · exact i2.out x hx y hxy
    · simp only [stackPush, List.mem_cons] at hx
      rcases hx with rfl | hx
      · exact hG y hy
      · exact i2.back x hx y (by simp [hy]) hxy
    · simp only [stackPush, List.pairwise_cons]
      exact ⟨fun u hu huv => i2.back u hu v (by simp) huv, i2.order⟩
    · exact p2.mono x ((flag_set hvl).2 (.inr hx))
    · have := p2.cnt
      simp only at this ⊢
      omega
    · simp [stackPush]

theorem dfsAll_spec (nb : Nat → List Nat) (hnb : ∀ i j, i < n → (j ∈ nb i ↔ E i j)) (hE : ∀ i j, E i j → i < n ∧ j < n)
    (htr : ∀ a b c, E a b → E b c → E a c) :
    ∃ s', dfsAll nb n (List.range n) { visited := List.replicate n false, stack := stackCreate } = .ok s' ∧
      s'.stack.Nodup ∧ (∀ x, x ∈ s'.stack ↔ x < n) ∧ s'.stack.Pairwise (fun v u => E u v → E v u) := by
  have loop : ∀ (us : List Nat) (s1 : Dfs), (∀ u ∈ us, u < n) → DInv n E [] s1 → unvis s1.visited ≤ n →
      ∃ s2, dfsList (dfs nb n) us s1 = .ok s2 ∧ DPost n E [] s1 s2 ∧ ∀ u ∈ us, flag s2.visited u = true := by
    intro us
    induction us with
    | nil =>
      intro s1 _ i1 _
      exact ⟨s1, rfl, ⟨i1, fun _ h => h, le_rfl⟩, by simp⟩
    | cons u us ihl =>
      intro s1 hus i1 hc
      rw [dfsList]
      by_cases hfu : flag s1.visited u = false
      · obtain ⟨s2, e2, p2, m2⟩ := dfs_spec nb hnb hE htr n s1 [] u i1 (hus u (by simp)) hfu (by simp) hc
        obtain ⟨s3, e3, p3, m3⟩ := ihl s2 (fun w hw => hus w (by simp [hw])) p2.inv (by have := p2.cnt; omega)
        refine ⟨s3, by simp only [hfu, if_true, e2, Res.ok_bind, e3], ⟨p3.inv, fun x hx => p3.mono x (p2.mono x hx), p3.cnt.trans p2.cnt⟩, ?_⟩
        intro w hw
        rcases List.mem_cons.1 hw with rfl | hw
        · exact p3.mono _ ((p2.inv.vis _).2 (.inl m2))
        · exact m3 w hw
      · obtain ⟨s3, e3, p3, m3⟩ := ihl s1 (fun w hw => hus w (by simp [hw])) i1 hc
        refine ⟨s3, by rw [if_neg hfu]; exact e3, p3, ?_⟩
        intro w hw
        rcases List.mem_cons.1 hw with rfl | hw
        · exact p3.mono _ (by simpa using hfu)
        · exact m3 w hw
  have hff : ∀ x, flag (List.replicate n false) x = false := by
    intro x; unfold flag; rw [List.getElem?_replicate]; split <;> rfl
  obtain ⟨s2, e2, p2, m2⟩ := loop (List.range n) { visited := List.replicate n false, stack := stackCreate }
    (fun u hu => List.mem_range.1 hu)
    ⟨by simp, by simp [hff, stackCreate], by simp [stackCreate], by simp [stackCreate], by simp [stackCreate], by simp [stackCreate], by simp [stackCreate]⟩
    (by simp [unvis])
  refine ⟨s2, e2, p2.inv.nd, fun x => ⟨fun hx => ?_, fun hx => ?_⟩, p2.inv.order⟩
  · have := flag_lt ((p2.inv.vis x).2 (.inl hx))
    rwa [p2.inv.len] at this
  · have := (p2.inv.vis x).1 (m2 x (List.mem_range.2 hx))
    simpa using this

/-! ### second search -/

/-- The effect of collecting from `v`. -/
structure CPost (P : Nat → Prop) (s s' : Coll) : Prop where
  len : s'.visited.length = n ∧ s'.deleted.length = n
  vd : ∀ x, flag s'.visited x = true → flag s'.deleted x = true
  ext : ∃ l, s'.out = s.out ++ l ∧ l.Nodup ∧ (∀ x ∈ l, flag s.deleted x = false ∧ x < n ∧ P x) ∧
    ∀ x, flag s'.deleted x = true ↔ flag s.deleted x = true ∨ x ∈ l
  cnt : unvis s'.deleted ≤ unvis s.deleted

theorem collect_spec (nb : Nat → List Nat) (hnb : ∀ i j, i < n → (j ∈ nb i ↔ E j i)) (hE : ∀ i j, E i j → i < n ∧ j < n)
    (htr : ∀ a b c, E a b → E b c → E a c) (fuel : Nat) :
    ∀ (s : Coll) (v : Nat), s.visited.length = n → s.deleted.length = n →
      (∀ x, flag s.visited x = true → flag s.deleted x = true) →
      v < n → flag s.deleted v = false → unvis s.deleted ≤ fuel →
      ∃ s', collect nb fuel s v = .ok s' ∧ CPost (n := n) (fun x => x = v ∨ E x v) s s' ∧
        flag s'.deleted v = true ∧ ∀ u, E u v → flag s'.deleted u = true := by
  induction fuel with
  | zero =>
    intro s v hl1 hl2 _ hv hf hu
    have := unvis_set (a := s.deleted) (v := v) (by omega) hf
    omega
  | succ fuel ih =>
    intro s v hl1 hl2 hvd hv hf hu
    have hcnt := unvis_set (a := s.deleted) (v := v) (by omega) hf
    have loop : ∀ (us : List Nat) (s1 : Coll), (∀ u ∈ us, E u v) → s1.visited.length = n → s1.deleted.length = n →
        (∀ x, flag s1.visited x = true → flag s1.deleted x = true) → unvis s1.deleted ≤ fuel →
        ∃ s2, collectList (collect nb fuel) us s1 = .ok s2 ∧ CPost (n := n) (fun x => E x v) s1 s2 ∧
          ∀ u ∈ us, flag s2.deleted u = true := by
      intro us
      induction us with
      | nil =>
        intro s1 _ l1 l2 d1 _
        exact ⟨s1, rfl, ⟨⟨l1, l2⟩, d1, ⟨[], by simp⟩, le_rfl⟩, by simp⟩
      | cons u us ihl =>
        intro s1 hus l1 l2 d1 hc
        rw [collectList]
        have huv := hus u (by simp)
        by_cases hfu : flag s1.deleted u = false
        · have hfv : flag s1.visited u = false := by
            by_contra hcon
            have := d1 u (by simpa using hcon)
            rw [hfu] at this; cases this
          obtain ⟨s2, e2, p2, m2, _⟩ := ih s1 u l1 l2 d1 (hE _ _ huv).1 hfu hc
          obtain ⟨s3, e3, p3, m3⟩ := ihl s2 (fun w hw => hus w (by simp [hw])) p2.len.1 p2.len.2 p2.vd (by have := p2.cnt; omega)
          refine ⟨s3, by simp only [hfu, hfv, Bool.not_false, Bool.and_self, if_true, e2, Res.ok_bind, e3], ⟨p3.len, p3.vd, ?_, p3.cnt.trans p2.cnt⟩, ?_⟩
          · obtain ⟨la, a1, a2, a3, a4⟩ := p2.ext
            obtain ⟨lb, b1, b2, b3, b4⟩ := p3.ext
            refine ⟨la ++ lb, by rw [b1, a1, List.append_assoc], ?_, ?_, ?_⟩
            · rw [List.nodup_append]
              refine ⟨a2, b2, fun x hx y hy => ?_⟩
              rintro rfl
              have h1 := (a4 x).2 (.inr hx)
              have h2 := (b3 x hy).1
              rw [h1] at h2; cases h2
            · intro x hx
              rcases List.mem_append.1 hx with hx | hx
              · obtain ⟨h1, h2, h3⟩ := a3 x hx
                refine ⟨h1, h2, ?_⟩
                rcases h3 with rfl | h3
                · exact huv
                · exact htr _ _ _ h3 huv
              · obtain ⟨h1, h2, h3⟩ := b3 x hx
                refine ⟨?_, h2, h3⟩
                by_contra hcon
                have := (a4 x).2 (.inl (by simpa using hcon))
                rw [h1] at this; cases this
            · intro x
              rw [b4, a4, List.mem_append, or_assoc]
          · intro w hw
            rcases List.mem_cons.1 hw with rfl | hw
            · obtain ⟨lb, b1, b2, b3, b4⟩ := p3.ext
              exact (b4 _).2 (.inl m2)
            · exact m3 w hw
        · have hfu' : flag s1.deleted u = true := by simpa using hfu
          obtain ⟨s3, e3, p3, m3⟩ := ihl s1 (fun w hw => hus w (by simp [hw])) l1 l2 d1 hc
          refine ⟨s3, by simp only [hfu', Bool.not_true, Bool.and_false, Bool.false_eq_true, if_false, Res.ok_bind, e3], p3, ?_⟩
          intro w hw
          rcases List.mem_cons.1 hw with rfl | hw
          · obtain ⟨lb, b1, b2, b3, b4⟩ := p3.ext
            exact (b4 _).2 (.inl hfu')
          · exact m3 w hw
    obtain ⟨s2, e2, p2, m2⟩ := loop (nb v)
      { visited := s.visited.set v true, deleted := s.deleted.set v true, out := s.out ++ [v] }
      (fun u hu => (hnb v u hv).1 hu) (by simp [hl1]) (by simp [hl2])
      (fun x hx => by
        simp only at hx ⊢
        rw [flag_set (by omega)] at hx ⊢
        rcases hx with rfl | hx
        · exact .inl rfl
        · exact .inr (hvd x hx)) (by simp only; omega)
    obtain ⟨l, b1, b2, b3, b4⟩ := p2.ext
    have hdel : ∀ x, flag (s.deleted.set v true) x = true ↔ x = v ∨ flag s.deleted x = true :=
      fun x => flag_set (by omega)
    refine ⟨s2, by rw [collect, e2], ⟨p2.len, p2.vd, ⟨v :: l, ?_, ?_, ?_, ?_⟩, ?_⟩, ?_, ?_⟩
    · rw [b1]; simp
    · rw [List.nodup_cons]
      refine ⟨fun hv' => ?_, b2⟩
      have h1 := (b3 v hv').1
      have h2 := (hdel v).2 (.inl rfl)
      simp only at h1
      rw [h2] at h1; cases h1
    · intro x hx
      rcases List.mem_cons.1 hx with rfl | hx
      · exact ⟨hf, hv, .inl rfl⟩
      · obtain ⟨h1, h2, h3⟩ := b3 x hx
        refine ⟨?_, h2, .inr h3⟩
        by_contra hcon
        have := (hdel x).2 (.inr (by simpa using hcon))
        simp only at h1
        rw [h1] at this; cases this
    · intro x
      rw [b4]
      simp only [List.mem_cons]
      rw [hdel]; tauto
    · have := p2.cnt
      simp only at this; omega
    · exact (b4 v).2 (.inl ((hdel v).2 (.inl rfl)))
    · intro u hu
      exact m2 u ((hnb v u hv).2 hu)

end dfs
end Aps.Scc

import Verif.Proofs.SccDfs
/-! Putting the parts of scc.c together. -/
namespace Aps.Scc

theorem transpose_inner {n i : Nat} (hi : i < n) (l : List Nat) (hl : ∀ u ∈ l, u < n) (r : List Bool)
    (hr : r.length = n * n) :
    (l.foldl (fun r u => addEdgeInternal n r u i) r).length = n * n ∧
    ∀ a b, b < n → (containsEdge n (l.foldl (fun r u => addEdgeInternal n r u i) r) a b = true ↔
      containsEdge n r a b = true ∨ (a ∈ l ∧ b = i)) := by
  induction l generalizing r with
  | nil => simp [hr]
  | cons u l ih =>
    have hu := hl u (by simp)
    obtain ⟨h1, h2⟩ := ih (fun w hw => hl w (by simp [hw])) (addEdgeInternal n r u i) (by simp [addEdgeInternal, hr])
    refine ⟨h1, fun a b hb => ?_⟩
    rw [List.foldl_cons, h2 a b hb, containsEdge_add hr hb hu hi, List.mem_cons]
    tauto

theorem transpose_outer {n : Nat} (nb : Nat → List Nat) (hnb : ∀ i < n, ∀ u ∈ nb i, u < n) (is : List Nat)
    (his : ∀ i ∈ is, i < n) (r : List Bool) (hr : r.length = n * n) :
    (is.foldl (fun r i => (nb i).foldl (fun r u => addEdgeInternal n r u i) r) r).length = n * n ∧
    ∀ a b, b < n → (containsEdge n (is.foldl (fun r i => (nb i).foldl (fun r u => addEdgeInternal n r u i) r) r) a b = true ↔
      containsEdge n r a b = true ∨ (b ∈ is ∧ a ∈ nb b)) := by
  induction is generalizing r with
  | nil => simp [hr]
  | cons i is ih =>
    have hi := his i (by simp)
    obtain ⟨g1, g2⟩ := transpose_inner hi (nb i) (hnb i hi) r hr
    obtain ⟨h1, h2⟩ := ih (fun w hw => his w (by simp [hw])) _ g1
    refine ⟨h1, fun a b hb => ?_⟩
    rw [List.foldl_cons, h2 a b hb, g2 a b hb, List.mem_cons]
    constructor
    · rintro ((h | ⟨h, rfl⟩) | h)
      · exact .inl h
      · exact .inr ⟨.inl rfl, h⟩
      · exact .inr ⟨.inr h.1, h.2⟩
    · rintro (h | ⟨rfl | h, h'⟩)
      · exact .inl (.inl h)
      · exact .inl (.inr ⟨h', rfl⟩)
      · exact .inr ⟨h, h'⟩

theorem transpose_spec {n : Nat} (nb : Nat → List Nat) (hnb : ∀ i < n, ∀ u ∈ nb i, u < n) (a b : Nat) (hb : b < n) :
    containsEdge n (transpose n nb) a b = true ↔ a ∈ nb b := by
  unfold transpose
  rw [(transpose_outer nb hnb (List.range n) (fun i hi => List.mem_range.1 hi) _ (by simp)).2 a b hb]
  have : containsEdge n (List.replicate (n * n) false) a b = false := by
    unfold containsEdge; rw [List.getElem?_replicate]; split <;> rfl
  simp [this, hb]

section
variable {n : Nat} {E : Nat → Nat → Prop}

/-- what the popping loop adds to the list of components -/
structure PopPost (deleted : List Bool) (new : List (List Nat)) : Prop where
  nd : new.flatten.Nodup
  mem : ∀ x, x ∈ new.flatten ↔ x < n ∧ flag deleted x = false
  scc : ∀ c ∈ new, ∃ v ∈ c, ∀ x, x ∈ c ↔ (x = v ∨ (E x v ∧ E v x))
  topo : new.Pairwise (fun c d => ∀ x ∈ c, ∀ y ∈ d, ¬ E y x)

theorem popLoop_spec (nb : Nat → List Nat) (hnb : ∀ i j, i < n → (j ∈ nb i ↔ E j i)) (hE : ∀ i j, E i j → i < n ∧ j < n)
    (htr : ∀ a b c, E a b → E b c → E a c) (st : List Nat) :
    ∀ (deleted : List Bool) (comps : List (List Nat)), deleted.length = n → (∀ x ∈ st, x < n) →
      st.Pairwise (fun v u => E u v → E v u) →
      (∀ x, x < n → flag deleted x = false → x ∈ st) →
      (∀ x y, flag deleted x = true → E y x → flag deleted y = true) →
      ∃ new, popLoop n nb st deleted comps = .ok (comps ++ new) ∧ PopPost (n := n) (E := E) deleted new := by
  induction st with
  | nil =>
    intro deleted comps hl _ _ hcov _
    refine ⟨[], by simp [popLoop], ⟨by simp, fun x => ?_, by simp, by simp⟩⟩
    simp only [List.flatten_nil, List.not_mem_nil, false_iff, not_and]
    intro hx hf
    exact absurd (hcov x hx hf) (by simp)
  | cons v st ih =>
    intro deleted comps hl hst hord hcov hdel
    rw [popLoop]
    rw [List.pairwise_cons] at hord
    have hv := hst v (by simp)
    by_cases hf : flag deleted v = false
    · simp only [hf, if_true]
      have hff : ∀ x, flag (List.replicate n false) x = false := by
        intro x; unfold flag; rw [List.getElem?_replicate]; split <;> rfl
      obtain ⟨s, e, p, mv, mu⟩ := collect_spec nb hnb hE htr n
        { visited := List.replicate n false, deleted := deleted, out := [] } v (by simp) hl
        (fun x hx => by rw [hff] at hx; cases hx) hv hf
        (by unfold unvis; rw [← hl]; exact List.count_le_length)
      obtain ⟨l, b1, b2, b3, b4⟩ := p.ext
      simp only [List.nil_append] at b1 b3 b4
      rw [e, Res.ok_bind, b1]
      have hscc : ∀ x, x ∈ l ↔ (x = v ∨ (E x v ∧ E v x)) := by
        intro x
        constructor
        · intro hx
          obtain ⟨h1, h2, h3⟩ := b3 x hx
          rcases h3 with h3 | h3
          · exact .inl h3
          · rcases List.mem_cons.1 (hcov x h2 h1) with h | h
            · exact .inl h
            · exact .inr ⟨h3, hord.1 x h h3⟩
        · rintro (rfl | ⟨h1, h2⟩)
          · rcases (b4 x).1 mv with h | h
            · rw [hf] at h; cases h
            · exact h
          · rcases (b4 x).1 (mu x h1) with h | h
            · have := hdel x v h h2
              rw [hf] at this; cases this
            · exact h
      obtain ⟨new, e2, q⟩ := ih s.deleted (comps ++ [l]) p.len.2 (fun x hx => hst x (by simp [hx])) hord.2
        (fun x hx hfx => by
          have hfx' : flag deleted x = false := by
            by_contra hcon
            have := (b4 x).2 (.inl (by simpa using hcon))
            rw [hfx] at this; cases this
          rcases List.mem_cons.1 (hcov x hx hfx') with rfl | h
          · rw [mv] at hfx; cases hfx
          · exact h)
        (fun x y hx hyx => by
          rcases (b4 x).1 hx with h | h
          · exact (b4 y).2 (.inl (hdel x y h hyx))
          · rcases (hscc x).1 h with rfl | ⟨h1, _⟩
            · exact mu y hyx
            · exact mu y (htr _ _ _ hyx h1))
      refine ⟨l :: new, by rw [e2]; simp, ⟨?_, ?_, ?_, ?_⟩⟩
      · rw [List.flatten_cons, List.nodup_append]
        refine ⟨b2, q.nd, fun x hx y hy => ?_⟩
        rintro rfl
        have h1 := ((q.mem x).1 hy).2
        have h2 := (b4 x).2 (.inr hx)
        rw [h1] at h2; cases h2
      · intro x
        rw [List.flatten_cons, List.mem_append, q.mem]
        constructor
        · rintro (h | ⟨h1, h2⟩)
          · exact ⟨(b3 x h).2.1, (b3 x h).1⟩
          · refine ⟨h1, ?_⟩
            by_contra hcon
            have := (b4 x).2 (.inl (by simpa using hcon))
            rw [h2] at this; cases this
        · rintro ⟨h1, h2⟩
          by_cases hx : x ∈ l
          · exact .inl hx
          · refine .inr ⟨h1, ?_⟩
            by_contra hcon
            rcases (b4 x).1 (by simpa using hcon) with h | h
            · rw [h2] at h; cases h
            · exact hx h
      · intro c hc
        rcases List.mem_cons.1 hc with rfl | hc
        · exact ⟨v, (hscc v).2 (.inl rfl), hscc⟩
        · exact q.scc c hc
      · rw [List.pairwise_cons]
        refine ⟨fun d hd x hx y hy hyx => ?_, q.topo⟩
        have hyf : y ∈ new.flatten := List.mem_flatten.2 ⟨d, hd, hy⟩
        have h1 := ((q.mem y).1 hyf).2
        have hyv : E y v := by
          rcases (hscc x).1 hx with rfl | ⟨h, _⟩
          · exact hyx
          · exact htr _ _ _ hyx h
        rw [mu y hyv] at h1; cases h1
    · simp only [hf]
      have hf' : flag deleted v = true := by simpa using hf
      have := ih deleted comps hl (fun x hx => hst x (by simp [hx])) hord.2 (fun x hx hfx => by
        rcases List.mem_cons.1 (hcov x hx hfx) with rfl | h
        · rw [hf'] at hfx; cases hfx
        · exact h) hdel
      simpa using this

end

/-- reachability along at least one edge -/
abbrev Reach (n : Nat) (adj : List Bool) := Relation.TransGen (R n adj)

theorem components_spec (n : Nat) (adj : List Bool) (hl : adj.length = n * n) :
    ∃ cs, components n adj = .ok cs ∧ cs.flatten.Nodup ∧ (∀ x, x ∈ cs.flatten ↔ x < n) ∧
      (∀ c ∈ cs, ∃ v ∈ c, ∀ x, x ∈ c ↔ (x = v ∨ (Reach n adj x v ∧ Reach n adj v x))) ∧
      cs.Pairwise (fun c d => ∀ x ∈ c, ∀ y ∈ d, ¬ Reach n adj y x) := by
  obtain ⟨adj', e1, l1, h1⟩ := closeLoop_spec n (n * n + 1) adj hl (by omega)
  have hE : ∀ i j, R n adj' i j → i < n ∧ j < n := fun i j h => ⟨h.1, h.2.1⟩
  have htr : ∀ a b c, R n adj' a b → R n adj' b c → R n adj' a c := by
    intro a b c hab hbc
    rw [h1] at *
    exact hab.trans hbc
  have hnb : ∀ i j, i < n → (j ∈ neighbors n adj' i ↔ R n adj' i j) := by
    intro i j hi
    rw [mem_neighbors]
    exact ⟨fun h => ⟨hi, h.1, h.2⟩, fun h => ⟨h.2.1, h.2.2⟩⟩
  obtain ⟨s, e2, nd, mem, ord⟩ := dfsAll_spec (neighbors n adj') hnb hE htr
  have hnb2 : ∀ i j, i < n → (j ∈ neighbors n (transpose n (neighbors n adj')) i ↔ R n adj' j i) := by
    intro i j hi
    rw [mem_neighbors]
    constructor
    · rintro ⟨hj, h⟩
      rw [transpose_spec _ (fun a ha u hu => (mem_neighbors.1 hu).1) _ _ hj] at h
      exact (hnb j i hj).1 h
    · intro h
      refine ⟨h.1, ?_⟩
      rw [transpose_spec _ (fun a ha u hu => (mem_neighbors.1 hu).1) _ _ h.1]
      exact (hnb j i h.1).2 h
  have hff : ∀ x, flag (List.replicate n false) x = false := by
    intro x; unfold flag; rw [List.getElem?_replicate]; split <;> rfl
  obtain ⟨new, e3, q⟩ := popLoop_spec (neighbors n (transpose n (neighbors n adj'))) hnb2 hE htr s.stack
    (List.replicate n false) [] (by simp) (fun x hx => (mem x).1 hx) ord (fun x hx _ => (mem x).2 hx)
    (fun x y hx => by rw [hff] at hx; cases hx)
  refine ⟨new, ?_, q.nd, fun x => ?_, fun c hc => ?_, ?_⟩
  · unfold components
    simp only [e1, e2, e3, Res.ok_bind, List.nil_append]
  · rw [q.mem]; simp [hff]
  · obtain ⟨v, hv, h⟩ := q.scc c hc
    refine ⟨v, hv, fun x => ?_⟩
    rw [h, h1, h1]
  · refine q.topo.imp ?_
    intro c d h x hx y hy
    exact fun hr => h x hx y hy ((h1 y x).2 hr)

end Aps.Scc

import Verif.Proofs.SccMain
import Verif.Props.HashTable
/-! The pointer level of scc.c: registration of vertices and edges. -/
namespace Aps.Scc
open Aps.HashTable Aps.Props

/-- `g` is the graph with the vertices `vs` (in order of registration) and the edges `es`. -/
structure GInv (g : Graph) (vs : List Nat) (es : List (Nat × Nat)) : Prop where
  next : g.next = vs.length
  le : vs.length ≤ g.n
  inv : Inv ptrOps g.map
  rep : ∃ m, Rep ptrOps g.map m ∧ ∀ k i, k ≠ 0 → (m k = some i ↔ vs[i]? = some k)
  nz : ∀ v ∈ vs, v ≠ 0
  plen : g.ptrs.length = g.n
  ptr : ∀ (i : Nat) (v : Nat), vs[i]? = some v → g.ptrs[i]? = some (some v)
  alen : g.adj.length = g.n * g.n
  edge : ∀ (i j : Nat), i < g.n → j < g.n → (containsEdge g.n g.adj i j = true ↔
    ∃ a b, vs[i]? = some a ∧ vs[j]? = some b ∧ (a, b) ∈ es)
  mem : ∀ p ∈ es, p.1 ∈ vs ∧ p.2 ∈ vs

theorem GInv.nodup {g : Graph} {vs es} (h : GInv g vs es) : vs.Nodup := by
  obtain ⟨m, _, hm⟩ := h.rep
  rw [List.nodup_iff_getElem?_ne_getElem?]
  intro i j hij hj heq
  have hi : i < vs.length := by omega
  have e1 : vs[i]? = some vs[i] := List.getElem?_eq_getElem hi
  have hnz := h.nz vs[i] (List.getElem_mem hi)
  have h1 := (hm _ i hnz).2 e1
  have h2 := (hm _ j hnz).2 (heq ▸ e1)
  rw [h1] at h2
  cases h2; omega

theorem initialize_inv {ntp : Nat → Res Nat} (hn : NtpOk ntp) {n : Nat} {g : Graph}
    (h : initialize' ntp n = .ok g) : GInv g [] [] ∧ g.n = n := by
  unfold initialize' at h
  rw [Res.bind_eq_ok] at h
  obtain ⟨t, h1, h2⟩ := h
  simp only [Res.pure_eq, Res.ok.injEq] at h2
  subst h2
  obtain ⟨i, r, _, _⟩ := create_spec ptrOps hn h1
  refine ⟨⟨rfl, by simp, i, ⟨_, r, by simp⟩, by simp, by simp, by simp, by simp, ?_, by simp⟩, rfl⟩
  intro i j hi hj
  simp [containsEdge, List.getElem?_replicate, cell_lt hi hj]

theorem indexOf_spec {g : Graph} {vs es} (h : GInv g vs es) {v : Nat} (hv : v ≠ 0) :
    (∀ i, vs[i]? = some v → indexOfPtr g v = .ok i) ∧ (v ∉ vs → indexOfPtr g v = .stop) := by
  obtain ⟨m, r, hm⟩ := h.rep
  obtain ⟨h1, h2⟩ := get_spec ptrOps_lawful h.inv r hv
  unfold indexOfPtr
  rw [h1, h2]
  simp only [Res.ok_bind]
  constructor
  · intro i hi
    have := (hm v i hv).2 hi
    have hlt : i < vs.length := (List.getElem?_eq_some_iff.1 hi).1
    have := h.le
    simp [*]; omega
  · intro hnm
    have : m v = none := by
      rcases hx : m v with _ | i
      · rfl
      · exact absurd (List.mem_of_getElem? ((hm v i hv).1 hx)) hnm
    simp [this]

theorem addVertex_inv {ntp : Nat → Res Nat} (hn : NtpOk ntp) {g g' : Graph} {vs es} (h : GInv g vs es)
    {v : Nat} (e : addVertex ntp g v = .ok g') :
    GInv g' (vs ++ [v]) es ∧ g'.n = g.n ∧ v ≠ 0 ∧ v ∉ vs ∧ vs.length < g.n := by
  unfold addVertex at e
  split at e
  · cases e
  rename_i hlt
  rw [Res.bind_eq_ok] at e
  obtain ⟨c, hc, e⟩ := e
  split at e
  · cases e
  rename_i hcf
  rw [Res.bind_eq_ok] at e
  obtain ⟨t, ht, e⟩ := e
  simp only [Res.pure_eq, Res.ok.injEq] at e
  subst e
  obtain ⟨m, r, hm⟩ := h.rep
  obtain ⟨hv, i', r'⟩ := add_spec ptrOps_lawful hn 0 h.inv r ht
  have hc' := (get_spec ptrOps_lawful h.inv r hv).2
  rw [hc'] at hc
  cases hc
  have hnm : v ∉ vs := by
    intro hmem
    obtain ⟨i, hi⟩ := List.getElem?_of_mem hmem
    rw [(hm v i hv).2 hi] at hcf
    exact hcf rfl
  have hnx := h.next
  have hltv : vs.length < g.n := by omega
  refine ⟨⟨?_, ?_, i', ⟨_, r', ?_⟩, ?_, ?_, ?_, h.alen, ?_, ?_⟩, rfl, hv, hnm, hltv⟩
  · simp [hnx]
  · simp; omega
  · intro k i hk
    unfold upd
    simp only [ptrOps, ptrEqualf, beq_iff_eq]
    by_cases hvk : v = k
    · subst hvk
      simp only [if_true, Option.some.injEq, hnx, List.getElem?_append]
      constructor
      · rintro rfl; simp
      · split
        · intro hx; exact absurd (List.mem_of_getElem? hx) hnm
        · intro hx
          have := (List.getElem?_eq_some_iff.1 hx).1
          simp at this; omega
    · rw [if_neg hvk, hm k i hk, List.getElem?_append]
      split
      · rfl
      · rename_i hi
        rw [List.getElem?_eq_none (by omega)]
        simp only [reduceCtorEq, false_iff]
        intro hx
        have h1 := (List.getElem?_eq_some_iff.1 hx)
        obtain ⟨a, b⟩ := h1
        simp at b; exact hvk b
  · intro x hx
    rcases List.mem_append.1 hx with hx | hx
    · exact h.nz x hx
    · simp at hx; subst hx; exact hv
  · simp [h.plen]
  · intro i x hx
    rw [List.getElem?_append] at hx
    rw [hnx]
    split at hx
    · rename_i hi
      simp only
      rw [List.getElem?_set_ne (by omega)]
      exact h.ptr i x hx
    · have h1 := (List.getElem?_eq_some_iff.1 hx)
      obtain ⟨a, b⟩ := h1
      simp at a b
      have hi : i = vs.length := by omega
      subst hi
      have hpl := h.plen
      simp only
      rw [List.getElem?_set_self (by omega), b]
  · intro i j hi hj
    simp only
    rw [h.edge i j hi hj]
    constructor
    · rintro ⟨a, b, ha, hb, hab⟩
      refine ⟨a, b, ?_, ?_, hab⟩
      · rw [List.getElem?_append_left (List.getElem?_eq_some_iff.1 ha).1]; exact ha
      · rw [List.getElem?_append_left (List.getElem?_eq_some_iff.1 hb).1]; exact hb
    · rintro ⟨a, b, ha, hb, hab⟩
      have key : ∀ (i x : Nat), x ∈ vs → (vs ++ [v])[i]? = some x → vs[i]? = some x := by
        intro i x hx hix
        rw [List.getElem?_append] at hix
        split at hix
        · exact hix
        · obtain ⟨a, b⟩ := (List.getElem?_eq_some_iff.1 hix)
          simp at b; subst b; exact absurd hx hnm
      have := h.mem _ hab
      exact ⟨a, b, key i a this.1 ha, key j b this.2 hb, hab⟩
  · intro p hp
    have := h.mem p hp
    simp [this.1, this.2]

theorem addEdge_inv {g g' : Graph} {vs es} (h : GInv g vs es) {s t : Nat} (hs : s ≠ 0) (ht : t ≠ 0)
    (e : addEdge g s t = .ok g') : GInv g' vs (es ++ [(s, t)]) ∧ g'.n = g.n ∧ s ∈ vs ∧ t ∈ vs := by
  unfold addEdge at e
  rw [Res.bind_eq_ok] at e
  obtain ⟨i, hi, e⟩ := e
  rw [Res.bind_eq_ok] at e
  obtain ⟨j, hj, e⟩ := e
  simp only [Res.pure_eq, Res.ok.injEq] at e
  subst e
  have hsm : s ∈ vs := by
    by_contra hc; rw [(indexOf_spec h hs).2 hc] at hi; cases hi
  have htm : t ∈ vs := by
    by_contra hc; rw [(indexOf_spec h ht).2 hc] at hj; cases hj
  obtain ⟨i', hi'⟩ := List.getElem?_of_mem hsm
  obtain ⟨j', hj'⟩ := List.getElem?_of_mem htm
  rw [(indexOf_spec h hs).1 _ hi'] at hi
  rw [(indexOf_spec h ht).1 _ hj'] at hj
  cases hi; cases hj
  have nd := h.nodup
  have hin : i < g.n := by have := (List.getElem?_eq_some_iff.1 hi').1; have := h.le; omega
  have hjn : j < g.n := by have := (List.getElem?_eq_some_iff.1 hj').1; have := h.le; omega
  refine ⟨⟨h.next, h.le, h.inv, h.rep, h.nz, h.plen, h.ptr, by simp [addEdgeInternal, h.alen], ?_, ?_⟩, rfl,
    hsm, htm⟩
  · intro a b ha hb
    simp only at ha hb ⊢
    rw [containsEdge_add h.alen hb hin hjn, h.edge a b ha hb]
    constructor
    · rintro (⟨rfl, rfl⟩ | ⟨x, y, hx, hy, hxy⟩)
      · exact ⟨s, t, hi', hj', by simp⟩
      · exact ⟨x, y, hx, hy, by simp [hxy]⟩
    · rintro ⟨x, y, hx, hy, hxy⟩
      rcases List.mem_append.1 hxy with hxy | hxy
      · exact .inr ⟨x, y, hx, hy, hxy⟩
      · simp only [List.mem_singleton, Prod.mk.injEq] at hxy
        obtain ⟨rfl, rfl⟩ := hxy
        refine .inl ⟨?_, ?_⟩
        · exact (List.getElem?_inj (List.getElem?_eq_some_iff.1 hx).1 nd).1 (hx.trans hi'.symm)
        · exact (List.getElem?_inj (List.getElem?_eq_some_iff.1 hy).1 nd).1 (hy.trans hj'.symm)
  · intro p hp
    rcases List.mem_append.1 hp with hp | hp
    · exact h.mem p hp
    · simp at hp; subst hp; exact ⟨hsm, htm⟩

theorem mapPtrs_ok {g : Graph} {vs es} (h : GInv g vs es) (l : List Nat) (hl : ∀ i ∈ l, i < vs.length) :
    ∃ ps, mapPtrs g l = .ok ps ∧ l.map (fun i => vs[i]?) = ps.map some := by
  induction l with
  | nil => exact ⟨[], rfl, rfl⟩
  | cons i l ih =>
    obtain ⟨ps, h1, h2⟩ := ih (fun x hx => hl x (by simp [hx]))
    have hi := hl i (by simp)
    have hle := h.le
    have e : vs[i]? = some vs[i] := List.getElem?_eq_getElem hi
    have := h.ptr i _ e
    refine ⟨vs[i] :: ps, ?_, by simp [h2, e]⟩
    rw [mapPtrs, ptrOfIndex, if_neg (by omega), this]
    simp [h1]

theorem mapComps_ok {g : Graph} {vs es} (h : GInv g vs es) (l : List (List Nat))
    (hl : ∀ c ∈ l, ∀ i ∈ c, i < vs.length) :
    ∃ ps, mapComps g l = .ok ps ∧ l.map (fun c => c.map (fun i => vs[i]?)) = ps.map (fun c => c.map some) := by
  induction l with
  | nil => exact ⟨[], rfl, rfl⟩
  | cons c l ih =>
    obtain ⟨ps, h1, h2⟩ := ih (fun x hx => hl x (by simp [hx]))
    obtain ⟨p, h3, h4⟩ := mapPtrs_ok h c (hl c (by simp))
    exact ⟨p :: ps, by rw [mapComps, h3]; simp [h1], by simp [h2, h4]⟩

/-- Reachability by at least one edge of `es`. -/
abbrev PReach (es : List (Nat × Nat)) : Nat → Nat → Prop := Relation.TransGen (fun a b => (a, b) ∈ es)

theorem reach_iff {g : Graph} {vs es} (h : GInv g vs es) {i j a b : Nat} (hi : vs[i]? = some a)
    (hj : vs[j]? = some b) : Reach g.n g.adj i j ↔ PReach es a b := by
  have nd := h.nodup
  have lt : ∀ (k x : Nat), vs[k]? = some x → k < g.n := by
    intro k x hx
    have := (List.getElem?_eq_some_iff.1 hx).1; have := h.le; omega
  constructor
  · intro r
    induction r generalizing b with
    | single hr =>
      obtain ⟨h1, h2, h3⟩ := hr
      obtain ⟨x, y, hx, hy, hxy⟩ := (h.edge _ _ h1 h2).1 h3
      rw [hi] at hx; rw [hj] at hy; cases hx; cases hy
      exact .single hxy
    | tail r hr ih =>
      obtain ⟨h1, h2, h3⟩ := hr
      obtain ⟨x, y, hx, hy, hxy⟩ := (h.edge _ _ h1 h2).1 h3
      rw [hj] at hy; cases hy
      exact .tail (ih hx) hxy
  · intro r
    induction r generalizing j with
    | single hr =>
      exact .single ⟨lt _ _ hi, lt _ _ hj, (h.edge _ _ (lt _ _ hi) (lt _ _ hj)).2 ⟨_, _, hi, hj, hr⟩⟩
    | tail r hr ih =>
      obtain ⟨k, hk⟩ := List.getElem?_of_mem (h.mem _ hr).1
      exact .tail (ih hk) ⟨lt _ _ hk, lt _ _ hj, (h.edge _ _ (lt _ _ hk) (lt _ _ hj)).2 ⟨_, _, hk, hj, hr⟩⟩

theorem graphComponents_ok {g : Graph} {vs es} (h : GInv g vs es) (hfull : vs.length = g.n) (hpos : 0 < g.n) :
    ∃ cs, graphComponents g = .ok cs ∧ cs.flatten.Nodup ∧ (∀ x, x ∈ cs.flatten ↔ x ∈ vs) ∧
      (∀ c ∈ cs, ∃ v ∈ c, ∀ x ∈ vs, x ∈ c ↔ (x = v ∨ (PReach es x v ∧ PReach es v x))) ∧
      cs.Pairwise (fun c d => ∀ x ∈ c, ∀ y ∈ d, ¬ PReach es y x) := by
  obtain ⟨cs, e1, nd, mem, scc, topo⟩ := components_spec g.n g.adj h.alen
  have hlt : ∀ c ∈ cs, ∀ i ∈ c, i < vs.length := by
    intro c hc i hi
    rw [hfull]; exact (mem i).1 (List.mem_flatten.2 ⟨c, hc, hi⟩)
  obtain ⟨ps, e2, hmap⟩ := mapComps_ok h cs hlt
  have vnd := h.nodup
  have hmf : cs.flatten.map (fun i => vs[i]?) = ps.flatten.map some := by
    rw [List.map_flatten, List.map_flatten, hmap]
  have inv1 : ∀ p ∈ ps, ∃ c ∈ cs, c.map (fun i => vs[i]?) = p.map some := by
    intro p hp
    have : p.map some ∈ ps.map (fun c => c.map some) := List.mem_map.2 ⟨p, hp, rfl⟩
    rw [← hmap] at this
    obtain ⟨c, hc, h⟩ := List.mem_map.1 this
    exact ⟨c, hc, h⟩
  have fwd : ∀ {c p : List Nat}, c.map (fun i => vs[i]?) = p.map some → ∀ x, x ∈ p ↔ ∃ i ∈ c, vs[i]? = some x := by
    intro c p h x
    have : some x ∈ p.map some ↔ x ∈ p := by simp
    rw [← this, ← h, List.mem_map]
  refine ⟨ps, ?_, ?_, ?_, ?_, ?_⟩
  · unfold graphComponents
    rw [if_neg (by omega), e1, Res.ok_bind, e2]
  · have : (cs.flatten.map (fun i => vs[i]?)).Nodup := by
      refine List.Nodup.map_on ?_ nd
      intro x hx y _ hxy
      exact (List.getElem?_inj (by rw [hfull]; exact (mem x).1 hx) vnd).1 hxy
    rw [hmf] at this
    exact List.Nodup.of_map _ this
  · intro x
    rw [fwd hmf x]
    constructor
    · rintro ⟨i, _, hi⟩; exact List.mem_of_getElem? hi
    · intro hx
      obtain ⟨i, hi⟩ := List.getElem?_of_mem hx
      exact ⟨i, (mem i).2 (by rw [← hfull]; exact (List.getElem?_eq_some_iff.1 hi).1), hi⟩
  · intro p hp
    obtain ⟨c, hc, hcp⟩ := inv1 p hp
    obtain ⟨v, hv, hs⟩ := scc c hc
    have hvl := hlt c hc v hv
    have ev : vs[v]? = some vs[v] := List.getElem?_eq_getElem hvl
    refine ⟨vs[v], (fwd hcp _).2 ⟨v, hv, ev⟩, fun x hx => ?_⟩
    obtain ⟨i, hi⟩ := List.getElem?_of_mem hx
    have hxi : x ∈ p ↔ i ∈ c := by
      rw [fwd hcp]
      constructor
      · rintro ⟨j, hj, hjx⟩
        have := (List.getElem?_inj (List.getElem?_eq_some_iff.1 hi).1 vnd).1 (hi.trans hjx.symm)
        rw [this]; exact hj
      · intro h; exact ⟨i, h, hi⟩
    rw [hxi, hs i, reach_iff h hi ev, reach_iff h ev hi]
    refine or_congr_left ?_
    constructor
    · rintro rfl; rw [hi] at ev; cases ev; rfl
    · intro hxv
      exact (List.getElem?_inj (List.getElem?_eq_some_iff.1 hi).1 vnd).1 (by rw [hi, ev, hxv])
  · have : (ps.map (fun c => c.map some)).Pairwise (fun c d => ∀ x ∈ c, ∀ y ∈ d, ∀ a b, x = some a → y = some b →
        ¬ PReach es b a) := by
      rw [← hmap, List.pairwise_map]
      refine topo.imp ?_
      intro c d hcd x hx y hy a b hxa hyb
      obtain ⟨i, hi, rfl⟩ := List.mem_map.1 hx
      obtain ⟨j, hj, rfl⟩ := List.mem_map.1 hy
      rw [← reach_iff h hyb hxa]
      exact hcd i hi j hj
    rw [List.pairwise_map] at this
    refine this.imp ?_
    intro c d hcd x hx y hy
    exact hcd (some x) (by simpa using hx) (some y) (by simpa using hy) x y rfl rfl

end Aps.Scc

import Verif.Proofs.PipelineBound
import Verif.Props.Static
set_option linter.unusedVariables false
/-!
# C65: from dependency graphs to evaluators

The whole way of a grammar from the dependency graphs made from its equations: closing them, finding the phases of the
phyla and the total orders of the productions, printing the visit procedures, and running them on a tree.
-/
namespace Aps.Props
open Aps Aps.Dnc Aps.Oag Aps.Static

variable {V : Type}

theorem ok_clean {G : Grammar V} (h : G.Ok) {info : Nat → Nat} (hinfo : ∀ (p : Nat) q, G.phyla[p]? = some q → info p = q.info)
    (hlinks : ∀ g ∈ G.state.augs, ∀ l ∈ g.links, ∃ p, G.state.phys[l.2]? = some p) : ∀ g ∈ G.state.augs, Clean info g := by
  intro g hg
  obtain ⟨x, hx⟩ := List.getElem?_of_mem hg
  have hx' : G.graphs[x]? = some g := hx
  have hlt := (List.getElem?_eq_some_iff.1 hx').1
  have hP := List.getElem?_eq_getElem (show x < G.prods.length by rw [← h.graphs]; exact hlt)
  have hoi := List.getElem?_eq_getElem (show x < G.conds.length by rw [h.conds, ← h.graphs]; exact hlt)
  obtain ⟨hD, hW, b, kb, hL, hI⟩ := h.prods x _ g _ hP hx' hoi
  have hph : ∀ l ∈ g.links, ∃ q, G.phyla[l.2]? = some q := by
    intro l hl
    obtain ⟨p, hp⟩ := hlinks g hg l hl
    have : (G.phyla.map Phylum.start)[l.2]? = some p := hp
    rw [List.getElem?_map] at this
    obtain ⟨q, hq, _⟩ := Option.map_eq_some_iff.1 this
    exact ⟨q, hq⟩
  have hl0 := (hL.links _).2 (.inl rfl)
  obtain ⟨p0, hp0⟩ := hph _ hl0
  refine ⟨fun l hl k hne => ?_⟩
  rcases (hL.links l).1 hl with rfl | ⟨c, k', hk, rfl⟩
  · simp only [hinfo _ _ hp0] at hne
    exact absurd (hI.lhs p0 hp0 k) hne
  · obtain ⟨q, hq⟩ := hph _ hl
    simp only [hinfo _ _ hq] at hne
    have := hI.kids c k' q p0 hk hq hp0 k hne
    refine ⟨_, hl0, ?_, ?_⟩
    · simp only [hinfo _ _ hp0]; exact this
    · intro j; rw [this]; exact hI.lhs p0 hp0 j

/-- C65. Every grammar whose productions have graphs with their direct dependencies: the graphs are closed in finitely many
steps; if no instance is found to depend on itself, the phases and total orders are found in finitely many steps; and if
then no cycle is found, every visit synthesises something, and no case statement is interrupted by another, the visit procedures
printed evaluate every tree. -/
theorem C65_evaluates_partial {G : Grammar V} (h : G.Ok) :
    ∃ F s1, (∀ f ≥ F, dncClose f G.state = .ok s1) ∧ (stateCycle s1 = 0 →
      ∃ F' s' scheds ts, (∀ f ≥ F', computeOag f (G.phyla.map (·.dirs)) G.conds s1 = .ok (s', scheds, ts)) ∧
        (stateCycle s' = 0 → Productive scheds → (∀ P ∈ G.filled scheds ts, CasesApart P) →
          Evaluates (phylaOf G.phyla scheds) (G.filled scheds ts))) := by
  have hphys : ∀ (y : Nat) p, G.state.phys[y]? = some p → ∃ q, G.phyla[y]? = some q ∧ p = q.start := by
    intro y p hp
    have : (G.phyla.map Phylum.start)[y]? = some p := hp
    rw [List.getElem?_map] at this
    obtain ⟨q, hq, he⟩ := Option.map_eq_some_iff.1 this
    exact ⟨q, hq, he.symm⟩
  let info : Nat → Nat := fun p => ((G.phyla[p]?).map (·.info)).getD 0
  have hinfo : ∀ (p : Nat) q, G.phyla[p]? = some q → info p = q.info := by intro p q hq; simp [info, hq]
  have hlinks : ∀ g ∈ G.state.augs, ∀ l ∈ g.links, ∃ p, G.state.phys[l.2]? = some p := by
    intro g hg l hl
    obtain ⟨p, hp, _⟩ := (h.start.start.inv.augs g hg).links l hl
    exact ⟨p, hp⟩
  have hdir : ∀ (y : Nat) p, G.state.phys[y]? = some p →
      info y < p.n ∧ (∃ d, (G.phyla.map (·.dirs))[y]? = some d ∧ d[info y]? = some .inward) := by
    intro y p hp
    obtain ⟨q, hq, rfl⟩ := hphys y p hp
    obtain ⟨_, h2, h3⟩ := h.phyla q (List.mem_of_getElem? hq)
    rw [hinfo _ _ hq]
    exact ⟨h2, q.dirs, by simp [hq], h3⟩
  obtain ⟨F, s1, e1, hrest⟩ := oag_graphs h.start (infoBound hdir hlinks h.start.apart (ok_clean h hinfo hlinks))
    (infoBelow (by
      intro y p hp a b
      obtain ⟨q, hq, rfl⟩ := hphys y p hp
      simp only [mget, Phylum.start]
      rw [List.getElem?_replicate]
      split <;> rfl))
  refine ⟨F, s1, e1, fun hc => ?_⟩
  obtain ⟨F', s', scheds, ts, e2, hfin⟩ := hrest hc
  refine ⟨F', s', scheds, ts, e2, fun hc' hprod hcases => ?_⟩
  obtain ⟨hkeys, hgood, hlen, hsrc⟩ := hfin hc'
  have hS : Scheds G.phyla scheds := by
    refine ⟨by rw [hkeys]; simp [Grammar.state], fun q hq => (h.phyla q hq).1, fun x hx => ?_⟩
    obtain ⟨p, d, a1, a2, a3, a4⟩ := hgood x hx
    obtain ⟨q, hq, rfl⟩ := hphys _ _ a1
    refine ⟨q, hq, a3, fun i hi => ?_⟩
    have : d = q.dirs := by simpa [hq] using a2.symm
    subst this
    exact a4 i hi
  have hall : ∀ P' ∈ G.filled scheds ts, ∃ (x : Nat) (P : Static.Prod V) (g : Aug) (oi : List OInst) (t : Cto), G.prods[x]? = some P ∧ G.graphs[x]? = some g ∧
      G.conds[x]? = some oi ∧ ts[x]? = some t ∧ P' = P.fill (phylaOf G.phyla scheds) t := by
    intro P' hP'
    obtain ⟨x, hx⟩ := List.getElem?_of_mem hP'
    have hlt := (List.getElem?_eq_some_iff.1 hx).1
    simp only [Grammar.filled, List.length_zipWith] at hlt
    have hP := List.getElem?_eq_getElem (show x < G.prods.length by omega)
    have ht := List.getElem?_eq_getElem (show x < ts.length by omega)
    have hg := List.getElem?_eq_getElem (show x < G.graphs.length by have := h.graphs; omega)
    have hoi := List.getElem?_eq_getElem (show x < G.conds.length by have := h.conds; omega)
    refine ⟨x, _, _, _, _, hP, hg, hoi, ht, ?_⟩
    simp only [Grammar.filled, List.getElem?_zipWith, hP, ht] at hx
    exact (Option.some.inj hx).symm
  have hphyl : ∀ {P : Static.Prod V} {g : Aug} {b : Nat} {kb : Nat → Nat}, g ∈ G.graphs → Laid G.phyla P g b kb → ∃ q, G.phyla[P.lhsPhy]? = some q := by
    intro P g b kb hg hL
    obtain ⟨p, hp⟩ := hlinks g hg _ ((hL.links _).2 (.inl rfl))
    obtain ⟨q, hq, _⟩ := hphys _ _ hp
    exact ⟨q, hq⟩
  refine C60_evaluates ⟨hS.phased hprod, ?_, ?_, ?_⟩
  · intro P' hP'
    obtain ⟨x, P, g, oi, t, hP, hg, hoi, ht, rfl⟩ := hall P' hP'
    obtain ⟨hD, hW, b, kb, hL, hI⟩ := h.prods x _ g _ hP hg hoi
    obtain ⟨q, hq⟩ := hphyl (List.mem_of_getElem? hg) hL
    have := (h.phyla q (List.mem_of_getElem? hq)).2.1
    exact hS.visited hprod hq (by omega)
  · intro P' hP'
    obtain ⟨x, P, g, oi, t, hP, hg, hoi, ht, rfl⟩ := hall P' hP'
    obtain ⟨hD, hW, b, kb, hL, hI⟩ := h.prods x _ g _ hP hg hoi
    exact filled_described hS hL hD
  · intro P' hP'
    have hc1 := hcases P' hP'
    obtain ⟨x, P, g, oi, t, hP, hg, hoi, ht, rfl⟩ := hall P' hP'
    obtain ⟨hD, hW, b, kb, hL, hI⟩ := h.prods x _ g _ hP hg hoi
    obtain ⟨g', hs⟩ := hsrc x g oi t hg hoi ht
    have hins : InstsOk g oi := by
      obtain ⟨b', eb, hb⟩ := forall2_get' h.start.insts (show G.state.augs[x]? = some g from hg)
      rw [hoi] at eb; cases eb; exact hb
    refine scheduled_of_graph (filled_described hS hL hD) (filled_graphed (s := G.state.phys) (info := info) hS hL hD hW hI hins hs ?_ ?_
      (hphyl (List.mem_of_getElem? hg) hL)) hs.order (filled_defined hS hL hD) hc1
    · intro p q hq; simp [Grammar.state, hq]
    · intro p q hq; exact ⟨hinfo p q hq, (h.phyla q (List.mem_of_getElem? hq)).2.1⟩

end Aps.Props

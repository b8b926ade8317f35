import Verif.Proofs.PipelineMain
set_option linter.unusedVariables false
/-! A bound of the dependency graphs: the shared info of a node depends at most on the shared info of its parent. -/
namespace Aps.Static
open Aps.Oag Aps.Dnc Aps.Props

variable {V : Type}

/-- the info of a node of the rule -/
def IsInfo (info : Nat → Nat) (g : Aug) (j : Nat) : Prop := ∃ l ∈ g.links, j = l.1 + info l.2

open Classical in
noncomputable def infoM (info : Nat → Nat) (gs : List Aug) (x : Nat) (_σ : Nat → Bool) (i j : Nat) : Dep :=
  match gs[x]? with
  | none => BitVec.allOnes 32
  | some g => if IsInfo info g j then (if g.cell i j = [] then 0 else BitVec.allOnes 32) else BitVec.allOnes 32

def infoN (info : Nat → Nat) (y _a b : Nat) : Dep := if b = info y then 0 else BitVec.allOnes 32

theorem le_ones (a : Dep) : Le a (BitVec.allOnes 32) := by
  intro i hi
  have : i < 32 := by
    by_contra h
    rw [BitVec.getLsbD_of_ge a i (by omega)] at hi
    cases hi
  rw [BitVec.getLsbD_allOnes]; simpa using this

theorem le_of_zero {a b : Dep} (h : a = 0) : Le a b := by
  subst h
  intro i hi
  have : (0 : Dep).getLsbD i = false := by simp
  rw [this] at hi
  cases hi

/-- the info of a node depends on nothing, or on the info of another node which depends on nothing -/
structure Clean (info : Nat → Nat) (g : Aug) : Prop where
  col : ∀ l ∈ g.links, ∀ k, g.cell k (l.1 + info l.2) ≠ [] → ∃ l' ∈ g.links, k = l'.1 + info l'.2 ∧ ∀ j, g.cell j k = []

theorem infoBound {s : State} {info : Nat → Nat} {dirs : List (List Dir)}
    (hin : ∀ (y : Nat) p, s.phys[y]? = some p → info y < p.n ∧ (∃ d, dirs[y]? = some d ∧ d[info y]? = some .inward))
    (hlinks : ∀ g ∈ s.augs, ∀ l ∈ g.links, ∃ p, s.phys[l.2]? = some p)
    (hap : ∀ g ∈ s.augs, LinksApart g s.phys) (hc : ∀ g ∈ s.augs, Clean info g) :
    InfoBound (infoM info s.augs) (infoN info) info dirs s := by
  refine ⟨⟨fun x g hg => ⟨?_, ?_⟩, ?_⟩, hin, fun y a => by simp [infoN], fun y a b h => by simp [infoN, h]⟩
  · intro σ i k j hi hk hj
    have hm := List.mem_of_getElem? hg
    simp only [infoM, hg]
    by_cases h1 : IsInfo info g j
    · by_cases h2 : g.cell k j = []
      · apply le_of_zero
        rw [trans_zero_iff]; right; simp [h1, h2]
      · obtain ⟨l, hl, rfl⟩ := h1
        obtain ⟨l', hl', rfl, h3⟩ := (hc g hm).col l hl k h2
        apply le_of_zero
        have : IsInfo info g (l'.1 + info l'.2) := ⟨l', hl', rfl⟩
        rw [trans_zero_iff]; left; simp [this, h3]
    · rw [if_neg h1]
      simp only [if_neg h1]
      exact le_ones _
  · intro l hl p hp i j hi hj
    have hm := List.mem_of_getElem? hg
    have hnot : j ≠ info l.2 → ¬ IsInfo info g (l.1 + j) := by
      rintro hne ⟨l', hl', he⟩
      obtain ⟨p', hp'⟩ := hlinks g hm l' hl'
      have := hap g hm l hl l' hl' p p' hp hp' j (info l'.2) hj (hin _ _ hp').1 he
      subst this
      omega
    refine ⟨fun σ => ?_, fun _ σ σ' => ?_, fun _ σ => ?_⟩
    · by_cases h : j = info l.2
      · exact le_of_zero (by simp [infoN, h])
      · simp only [infoM, hg, if_neg (hnot h)]
        exact le_ones _
    · exact fun i hi => hi
    · by_cases h : j = info l.2
      · apply le_of_zero
        have : g.cell (l.1 + i) (l.1 + j) = [] := by
          by_contra hne
          rw [h] at hne
          obtain ⟨l', hl', he, hz⟩ := (hc g hm).col l hl _ hne
          obtain ⟨p', hp'⟩ := hlinks g hm l' hl'
          have := hap g hm l hl l' hl' p p' hp hp' i (info l'.2) hi (hin _ _ hp').1 he
          subst this
          rw [he] at hne
          exact hne (by rw [he] at hz; exact hz _)
        have h2 : IsInfo info g (l.1 + j) := ⟨l, hl, by rw [h]⟩
        simp only [infoM, hg, if_pos h2, this, if_true]
        decide
      · simp only [infoN, if_neg h]
        exact le_ones _
  · intro y p hp a c b ha hc' hb
    by_cases h : b = info y
    · apply le_of_zero
      rw [trans_zero_iff]; right; simp [infoN, h]
    · simp only [infoN, if_neg h]
      exact le_ones _

theorem infoBelow {s : State} {info : Nat → Nat} (hz : ∀ (y : Nat) p, s.phys[y]? = some p → ∀ a b, mget p.n p.m a b = 0) :
    SBelow (infoM info s.augs) (infoN info) s := by
  refine ⟨fun x g hg σ i j hi hj => ?_, fun y p hp a b ha hb => le_of_zero (hz y p hp a b)⟩
  simp only [infoM, hg]
  split
  · split
    · rename_i h; rw [h]; exact le_of_zero rfl
    · exact le_ones _
  · exact le_ones _

end Aps.Static

import Verif.Proofs.ChunkSeq
import Verif.Spec.SccGen
/-! The schedule of the chunk scheduler, as a plan. -/
set_option linter.unusedVariables false
namespace Aps.SccGen
open Aps.Chunk hiding Run Step Direct

/-- the instances of a place -/
def placed (I : Input) (g : Int × Int) : List SccGen.Step := (I.members fun h => h == g).map .inst

/-- what is done for a part -/
def stepsOf (I : Input) : Part → List SccGen.Step
  | .left p => placed I (-(p : Int), -1)
  | .right p => placed I ((p : Int), -1)
  | .visit ch p => placed I (-(p : Int), (ch : Int)) ++ .visit ch p :: placed I ((p : Int), (ch : Int))
  | .loc i => [.inst i]

/-- the chunk of a part -/
def idx (I : Input) (y : Part) : Nat := (parts I).idxOf y

def runOf (I : Input) (y : Part) : SccGen.Run := ⟨idx I y, stepsOf I y⟩

def visitOf (I : Input) (q : Nat) (mid : List Part) : Visit :=
  ⟨((phaseParts q mid).map (runOf I)).filter fun r => !r.steps.isEmpty, idx I (.right q)⟩

def planOf (I : Input) : Nat → List (List Part) → List Visit
  | _, [] => []
  | q, mid :: L => visitOf I q mid :: planOf I (q + 1) L

def stepEv : SccGen.Step → Ev
  | .inst i => .inst i
  | .visit c p => .visit c p

theorem emit_plain {I : Input} (hp : Plain I) (l : List Nat) : emit I ⟨0, 0⟩ l = l.map .inst := by
  unfold emit
  rw [List.filter_eq_self.2]
  intro i hi
  rw [(hp i).1]
  decide

theorem evsOf_plain {I : Input} (hp : Plain I) (y : Part) : evsOf I ⟨0, 0⟩ y =
    (stepsOf I y).map stepEv ++ (match y with | .right p => [.finish p] | _ => []) := by
  cases y <;> simp only [evsOf, stepsOf, emit_plain hp, placed] <;> simp [stepEv, Function.comp_def]

theorem idx_of {I : Input} {k : Nat} {y : Part} (h : (parts I)[k]? = some y) : idx I y = k := by
  have hk := lt_of_getElem? h
  rw [List.getElem?_eq_getElem hk] at h
  cases h
  exact (nodup_parts I).idxOf_getElem k hk

theorem idx_inj {I : Input} {x y : Part} (hx : I.Has x) (hy : I.Has y) (h : idx I x = idx I y) : x = y :=
  (List.idxOf_inj (mem_parts.2 hx)).1 h

theorem parts_idx {I : Input} {x : Part} (hx : I.Has x) : (parts I)[idx I x]? = some x := by
  obtain ⟨k, hk⟩ := List.getElem?_of_mem (mem_parts.2 hx)
  rw [idx_of hk]; exact hk

theorem stepPart {I : Input} (hw : Wf I) {y : Part} (hy : I.Has y) (hp : Plain I) {s : SccGen.Step} (hs : s ∈ stepsOf I y) :
    I.evPart (stepEv s) = y := by
  refine evPart_of hw (c := ⟨0, 0⟩) hy ?_
  rw [evsOf_plain hp]
  exact List.mem_append_left _ (List.mem_map_of_mem hs)

/-- the steps at the beginning of a tree -/
theorem tree_steps {I : Input} {σ : Nat → Bool} {y : Part} : ∀ (l : List SccGen.Step) (q : Nat) (t : Tree) (es : List Ev),
    (∀ s ∈ l, I.evPart (stepEv s) = y) → Tagged I q t → t.path I.rule σ = l.map stepEv ++ es →
    ∃ t', t = stepsTree q (idx I y) t' l ∧ Tagged I q t' ∧ t'.path I.rule σ = es := by
  intro l
  induction l with
  | nil => intro q t es _ ht h; exact ⟨t, rfl, ht, h⟩
  | cons s l ih =>
    intro q t es hl ht h
    have hs := hl s (by simp)
    cases t with
    | nil => simp [Tree.path] at h
    | ifs i v k a b => exact ht.elim
    | inst i v k next =>
      obtain ⟨h1, h2, h3⟩ := ht
      simp only [Tree.path, List.map_cons, List.cons_append, List.cons.injEq] at h
      obtain ⟨h4, h5⟩ := h
      cases s with
      | visit c p => simp [stepEv] at h4
      | inst j =>
        simp only [stepEv, Ev.inst.injEq] at h4
        subst h4
        obtain ⟨t', g1, g2, g3⟩ := ih q next es (fun s hs => hl s (List.mem_cons_of_mem _ hs)) h3 h5
        refine ⟨t', ?_, g2, g3⟩
        simp only [stepEv, Input.evPart] at hs
        rw [hs] at h2
        rw [stepsTree, Step.tree, ← g1, idx_of h2, h1]
    | mark ph ch v k next =>
      obtain ⟨h1, h2, hc, hph, h3⟩ := ht
      simp only [Tree.path, List.map_cons, List.cons_append, List.cons.injEq] at h
      obtain ⟨h4, h5⟩ := h
      cases s with
      | inst j =>
        exfalso
        unfold markEv at h4
        split at h4 <;> simp [stepEv] at h4
      | visit c p =>
        have hne : ch ≠ -1 := by
          rintro rfl
          simp [markEv, stepEv] at h4
        rw [if_neg hne] at h3
        rw [h4, hs] at h2
        simp only [markEv, hne, if_false, stepEv, Ev.visit.injEq] at h4
        obtain ⟨t', g1, g2, g3⟩ := ih q next es (fun s hs => hl s (List.mem_cons_of_mem _ hs)) h3 h5
        refine ⟨t', ?_, g2, g3⟩
        rw [stepsTree, Step.tree, ← g1, idx_of h2, h1]
        congr 1 <;> omega

theorem stepsTree_nil (q k : Nat) (next : Tree) : stepsTree q k next [] = next := rfl

theorem runsTree_filter (q : Nat) (next : Tree) (rs : List SccGen.Run) :
    runsTree q next (rs.filter fun r => !r.steps.isEmpty) = runsTree q next rs := by
  induction rs with
  | nil => rfl
  | cons r rs ih =>
    by_cases h : r.steps = []
    · rw [List.filter_cons_of_neg (by simp [h]), ih, runsTree, h]; rfl
    · rw [List.filter_cons_of_pos (by simpa using h), runsTree, ih]; rfl

/-- the parts at the beginning of a tree -/
theorem tree_parts {I : Input} (hw : Wf I) (hp : Plain I) {σ : Nat → Bool} : ∀ (S : List Part) (q : Nat) (t : Tree) (es : List Ev),
    (∀ y ∈ S, I.Has y ∧ ∀ p, y ≠ .right p) → Tagged I q t → t.path I.rule σ = S.flatMap (evsOf I ⟨0, 0⟩) ++ es →
    ∃ t', t = runsTree q t' (S.map (runOf I)) ∧ Tagged I q t' ∧ t'.path I.rule σ = es := by
  intro S
  induction S with
  | nil => intro q t es _ ht h; exact ⟨t, rfl, ht, h⟩
  | cons y S ih =>
    intro q t es hS ht h
    obtain ⟨hy, hnr⟩ := hS y (by simp)
    have hev : evsOf I ⟨0, 0⟩ y = (stepsOf I y).map stepEv := by
      rw [evsOf_plain hp]
      cases y with
      | right p => exact absurd rfl (hnr p)
      | _ => simp
    rw [List.flatMap_cons, hev, List.append_assoc] at h
    obtain ⟨t1, g1, g2, g3⟩ := tree_steps (y := y) _ q t _ (fun s hs => stepPart hw hy hp hs) ht h
    obtain ⟨t2, k1, k2, k3⟩ := ih q t1 es (fun z hz => hS z (List.mem_cons_of_mem _ hz)) g2 g3
    refine ⟨t2, ?_, k2, k3⟩
    rw [g1, k1]
    rfl

theorem runsTree_append (q : Nat) (next : Tree) (a b : List SccGen.Run) :
    runsTree q next (a ++ b) = runsTree q (runsTree q next b) a := by
  induction a with
  | nil => rfl
  | cons r a ih => rw [List.cons_append, runsTree, runsTree, ih]

/-- a schedule without conditionals is its plan -/
theorem tree_plan {I : Input} (hw : Wf I) (hp : Plain I) {σ : Nat → Bool} : ∀ (L : List (List Part)) (q : Nat) (t : Tree),
    (∀ y ∈ allParts q L, I.Has y) → (∀ mid ∈ L, ∀ y ∈ mid, ∀ p, y ≠ .right p) → Tagged I q t →
    t.path I.rule σ = (allParts q L).flatMap (evsOf I ⟨0, 0⟩) → t = planTree q (planOf I q L) := by
  intro L
  induction L with
  | nil =>
    intro q t _ _ ht h
    cases t with
    | nil => rfl
    | inst i v k next => simp [Tree.path, allParts] at h
    | ifs i v k a b => exact ht.elim
    | mark ph ch v k next => simp [Tree.path, allParts] at h
  | cons mid L ih =>
    intro q t hall hmid ht h
    have e : allParts q (mid :: L) = (.left q :: mid) ++ .right q :: allParts (q + 1) L := by
      simp [allParts, phaseParts]
    rw [e, List.flatMap_append] at h
    obtain ⟨t1, g1, g2, g3⟩ := tree_parts hw hp _ q t _ (fun y hy => ⟨hall y (by rw [e]; exact List.mem_append_left _ hy), by
      rcases List.mem_cons.1 hy with rfl | hy
      · intro p h; cases h
      · exact hmid mid (by simp) y hy⟩) ht h
    have hr : I.Has (.right q) := hall _ (by rw [e]; simp)
    rw [List.flatMap_cons, evsOf_plain hp, List.append_assoc] at g3
    obtain ⟨t2, k1, k2, k3⟩ := tree_steps (y := .right q) _ q t1 _ (fun s hs => stepPart hw hr hp hs) g2 g3
    simp only [List.cons_append, List.nil_append] at k3
    cases t2 with
    | nil => simp [Tree.path] at k3
    | inst i v k next => simp [Tree.path] at k3
    | ifs i v k a b => exact k2.elim
    | mark ph ch v k next =>
      obtain ⟨h1, h2, hc, hph, h3⟩ := k2
      simp only [Tree.path, List.cons.injEq] at k3
      obtain ⟨h4, h5⟩ := k3
      have hch : ch = -1 := by
        by_contra hne
        simp [markEv, hne] at h4
      subst hch
      rw [if_pos rfl] at h3
      rw [h4] at h2
      simp only [markEv, if_true, Ev.finish.injEq] at h4
      have hpq : ph = (q : Int) := by omega
      have := ih (q + 1) next (fun y hy => hall y (by rw [e]; simp [hy])) (fun m hm => hmid m (List.mem_cons_of_mem _ hm)) h3 h5
      have hidx := idx_of h2
      simp only [Input.evPart] at hidx
      rw [planOf, planTree, visitOf]
      simp only
      rw [runsTree_filter]
      have e2 : phaseParts q mid = (.left q :: mid) ++ [.right q] := by simp [phaseParts]
      rw [e2, List.map_append, runsTree_append, g1, k1, ← this, hidx, hpq, h1, List.map_singleton, runsTree, runsTree, runOf, hidx]

end Aps.SccGen

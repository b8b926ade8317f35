import Verif.Proofs.Next
set_option linter.unusedVariables false
/-!
# C61: iterating over syntactic sequences
-/
namespace Aps.Props

open Aps.Next

/-- C61. For every syntax tree (whose nodes have different addresses), however its sequences are bracketed, the pass
that sets the `next` fields ends, and then for every sequence anywhere in the tree the loop
`for (x = first_X(s); x != NULL; x = X_NEXT(x))` goes through exactly the elements of the sequence, in order. -/
theorem C61_iterate (t : Node) (ht : t.ids.Nodup) (h₀ : Links) :
    ∃ F h, (∀ fuel ≥ F, traverse fuel t h₀ = .ok h) ∧ ∀ s ∈ t.seqs, Iterates h (first s) s.elems := by
  obtain ⟨F, new, hr, _, hs⟩ := node_does t ht h₀
  exact ⟨F, new ++ h₀, hr, hs (new ++ h₀) fun _ _ => rfl⟩

/-- C61. Only the fields of nodes below the root of the tree are changed. -/
theorem C61_frame (t : Node) (ht : t.ids.Nodup) (h₀ : Links) :
    ∃ F h, (∀ fuel ≥ F, traverse fuel t h₀ = .ok h) ∧ ∀ n : Node, n.id ∉ t.kids.ids → next h n = next h₀ n := by
  obtain ⟨F, new, hr, hk, _⟩ := node_does t ht h₀
  exact ⟨F, new ++ h₀, hr, fun n hn => look_append fun hm => hn (hk _ hm)⟩

/-- What is iterated is determined: a loop cannot also give another list. -/
theorem C61_unique {h : Links} {o : Option Node} {l₁ l₂ : List Node} (h₁ : Iterates h o l₁) (h₂ : Iterates h o l₂) : l₁ = l₂ := by
  induction h₁ generalizing l₂ with
  | done => cases h₂; rfl
  | step _ ih => cases h₂ with | step h₂ => rw [ih h₂]

/-- A module with declarations bracketed to the left and to the right with empty sequences between, one of them
with parameters, one with a sequence of `Types`. -/
def nxTree : Node :=
  .mk 0 (.node (.mk 1 .nil) (.seq true (.append (.append (.list (.mk 2 .nil)) .nil)
    (.append (.list (.mk 3 (.seq true (.append .nil (.append (.list (.mk 4 .nil)) (.list (.mk 5 .nil)))) .nil)))
      (.list (.mk 6 (.seq false (.list (.mk 7 (.seq true (.list (.mk 8 .nil)) .nil))) .nil))))) .nil))

example : nxTree.ids.Nodup ∧ (nxTree.seqs.map fun s => s.elems.map Node.id) = [[2, 3, 6], [4, 5], [8]] ∧
    ∃ h, traverse 30 nxTree [] = .ok h ∧ (next h (.mk 2 .nil)).map Node.id = some 3 ∧ (next h (.mk 4 .nil)).map Node.id = some 5 ∧
      (next h (.mk 6 .nil)).map Node.id = none ∧ (next h (.mk 7 .nil)).map Node.id = none := by
  refine ⟨by decide, rfl, ?_⟩
  exact ⟨_, rfl, rfl, rfl, rfl, rfl⟩

end Aps.Props

import Verif.Model.Runtime
import Mathlib.Logic.Relation
/-!
# What the equations of an attribute grammar mean

Independent of the evaluator: `asg a i = some v` says the `i`-th node's attribute `a` was assigned
`v`; otherwise its value is what its equation gives.
-/
namespace Aps.Runtime
variable {A P V : Type}

/-- `Runs L asg S c v`: running `c`, each attribute read giving the value it is defined to have,
returns `v`; all attributes read (directly or not) are in `S`. -/
inductive Runs (L : Lang A P V) (asg : A → Nat → Option V) (S : A → Prop) :
    Comp A P V → V → Prop
  | ret (v) : Runs L asg S (.ret v) v
  | given {b m k w v} : m.phylum = L.phylum b → S b → asg b m.index = some w →
      Runs L asg S (k w) v → Runs L asg S (.read b m k) v
  | eqn {b m k w v} : m.phylum = L.phylum b → S b → asg b m.index = none →
      Runs L asg S (L.compute b m) w → Runs L asg S (k w) v → Runs L asg S (.read b m k) v

/-- `Den L asg a n v`: the value of attribute `a` at node `n` is defined and is `v`. -/
def Den (L : Lang A P V) (asg : A → Nat → Option V) (a : A) (n : Node P) (v : V) : Prop :=
  Runs L asg (fun _ => True) (.read a n .ret) v

/-- `Reaches L asg c c'`: running `c` gets to `c'`, the reads before it giving the defined values. -/
inductive Reaches (L : Lang A P V) (asg : A → Nat → Option V) : Comp A P V → Comp A P V → Prop
  | here (c) : Reaches L asg c c
  | step {b m k w c'} : Den L asg b m w → Reaches L asg (k w) c' → Reaches L asg (.read b m k) c'

/-- `Demands L asg (a,n) (b,m)`: the equation of `a` at `n` is used, and reads `b` at `m`. -/
def Demands (L : Lang A P V) (asg : A → Nat → Option V) (x y : A × Node P) : Prop :=
  asg x.1 x.2.index = none ∧ ∃ k, Reaches L asg (L.compute x.1 x.2) (.read y.1 y.2 k)

/-- Attributes of node assigned in the state. -/
def assignedIn (s : St A P V) (a : A) (i : Nat) : Option V :=
  if (s.attr a).stat[i]? = some .assigned then (s.attr a).vals[i]? else none

end Aps.Runtime

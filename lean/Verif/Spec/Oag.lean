/-!
# What a schedule is

Independent of the model: phases, orders of instances.
-/
namespace Aps.Oag

/-- The place of a phase number in the sequence of visits: the inherited attributes of phase `p` have
number `-p` and come just before the synthesised ones, numbered `+p`: `-1, +1, -2, +2, ...` -/
def place (s : Int) : Nat := if s < 0 then 2 * s.natAbs else 2 * s.natAbs + 1

/-- `order` lists `0, ..., n-1` so that nothing comes before (or is) something it depends on; `dep j i`: `i`
depends on `j`. -/
structure TotalOrder (n : Nat) (dep : Nat → Nat → Prop) (order : List Nat) : Prop where
  all : ∀ i, i ∈ order ↔ i < n
  once : order.Nodup
  before : ∀ pre i post, order = pre ++ i :: post → ∀ j, j < n → dep j i → j ∈ pre

end Aps.Oag

/-!
# Outcomes of C code

`Res α` is the outcome of running a piece of the C/C++ program: a normal result, undefined
behaviour (out-of-bounds access, NULL dereference, division by zero, ...), a deliberate stop of the
process (`exit(1)`, `fatal_error`, an uncaught throw), or that the fuel given to a loop of the
model ran out (the loop did not end within the given number of rounds).
-/
namespace Aps

inductive Res (α : Type _) where
  | ok (a : α)
  | ub
  | stop
  | nofuel
  deriving Repr, DecidableEq

namespace Res

@[simp] def bind {α β : Type _} : Res α → (α → Res β) → Res β
  | .ok a, f => f a
  | .ub, _ => .ub
  | .stop, _ => .stop
  | .nofuel, _ => .nofuel

instance : Monad Res where
  pure := Res.ok
  bind := Res.bind

@[simp] theorem pure_eq {α : Type _} (a : α) : (pure a : Res α) = .ok a := rfl
@[simp] theorem ok_bind {α β : Type _} (a : α) (f : α → Res β) : (Res.ok a >>= f) = f a := rfl
@[simp] theorem ub_bind {α β : Type _} (f : α → Res β) : (Res.ub >>= f) = .ub := rfl
@[simp] theorem stop_bind {α β : Type _} (f : α → Res β) : (Res.stop >>= f) = .stop := rfl
@[simp] theorem nofuel_bind {α β : Type _} (f : α → Res β) : (Res.nofuel >>= f) = .nofuel := rfl

theorem bind_eq_ok {α β : Type _} {x : Res α} {f : α → Res β} {b : β} :
    (x >>= f) = .ok b ↔ ∃ a, x = .ok a ∧ f a = .ok b := by
  cases x <;> simp

instance : LawfulMonad Res := LawfulMonad.mk'
  (id_map := by intro α x; cases x <;> rfl)
  (pure_bind := by intros; rfl)
  (bind_assoc := by intro α β γ x f g; cases x <;> rfl)

end Res
end Aps

import Verif.Model.Locals
import Verif.Spec.DynGen
/-! # Specification: the locals of a program, and what runs when a block runs -/
namespace Aps.Locals
open Aps.DynGen
variable {V : Type}

mutual
/-- The locals of a statement, in the order of the text; not those in loops. -/
def localsS : Stmt V → List Nat
  | .decl x _ _ => [x]
  | .ite _ t e => locals t ++ locals e
  | .cases _ ms b => localsM ms ++ locals b
  | _ => []
def locals : List (Stmt V) → List Nat
  | [] => []
  | d :: ds => localsS d ++ locals ds
def localsM : List (Pat V × List (Stmt V)) → List Nat
  | [] => []
  | (_, b) :: ms => locals b ++ localsM ms
end

/-- The locals of the rules of a program. -/
def programLocals (ts : List (Tlm V)) : List Nat := ts.flatMap fun t => locals t.body

/-- Running the block `b` with the variables `ρ` runs the block `b'` inside it, with the variables `ρ'`; what is
between, from the inside out. -/
inductive Reach (W : World V) : List (Stmt V) → Env V → List (Frame V) → List (Stmt V) → Env V → Prop where
  | here (b : List (Stmt V)) (ρ : Env V) : Reach W b ρ [] b ρ
  | yes {b t e b' : List (Stmt V)} {c : Ex V} {ρ ρ' : Env V} {fs : List (Frame V)} : .ite c t e ∈ b → W.truth (c ρ) = true →
      Reach W t ρ fs b' ρ' → Reach W b ρ (fs ++ [.branch]) b' ρ'
  | no {b t e b' : List (Stmt V)} {c : Ex V} {ρ ρ' : Env V} {fs : List (Frame V)} : .ite c t e ∈ b → W.truth (c ρ) = false →
      Reach W e ρ fs b' ρ' → Reach W b ρ (fs ++ [.branch]) b' ρ'
  | arm {b d b' body : List (Stmt V)} {e : Ex V} {p : Pat V} {pre post : List (Pat V × List (Stmt V))} {ρ ρ1 ρ' : Env V}
      {fs : List (Frame V)} : .cases e (pre ++ (p, body) :: post) d ∈ b → (∀ q ∈ pre, pmatch W q.1 (e ρ) ρ = none) →
      pmatch W p (e ρ) ρ = some ρ1 → Reach W body ρ1 fs b' ρ' → Reach W b ρ (fs ++ [.arm e p]) b' ρ'
  | dflt {b d b' : List (Stmt V)} {e : Ex V} {ms : List (Pat V × List (Stmt V))} {ρ ρ' : Env V} {fs : List (Frame V)} :
      .cases e ms d ∈ b → (∀ q ∈ ms, pmatch W q.1 (e ρ) ρ = none) → Reach W d ρ fs b' ρ' → Reach W b ρ (fs ++ [.branch]) b' ρ'

/-- The variables of the matches around a local, from the outside in. -/
def around (p : Pat V) (fs : List (Frame V)) : List Nat :=
  patVars p ++ fs.reverse.flatMap fun
    | .branch => []
    | .arm _ q => patVars q

end Aps.Locals

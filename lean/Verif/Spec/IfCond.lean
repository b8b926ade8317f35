import Verif.Model.IfCond
/-!
# Control flow through conditionals

`τ` says for every if statement and every match (by identity) whether its test succeeds.
-/
namespace Aps.IfCond

mutual
/-- The declarations control reaches and the matches it tries. -/
def reachD (τ : Nat → Bool) : Dcl → List Nat
  | .plain id => [id]
  | .modul id _ => [id]
  | .group id body => id :: reachB τ body
  | .ifS id _ t f => id :: (if τ id then reachB τ t else reachB τ f)
  | .caseS id ms d => id :: ((reachCase τ ms).1 ++ (if (reachCase τ ms).2 then reachB τ d else []))
  | .forS id ms => id :: reachFor τ ms
/-- A block: all its declarations. -/
def reachB (τ : Nat → Bool) : Blk → List Nat
  | .nil => []
  | .cons d rest => reachD τ d ++ reachB τ rest
/-- A case: matches are tried in order until one succeeds; the flag says that none did. -/
def reachCase (τ : Nat → Bool) : Mats → List Nat × Bool
  | .nil => ([], true)
  | .cons id _ body rest =>
    if τ id then (id :: reachB τ body, false) else (id :: (reachCase τ rest).1, (reachCase τ rest).2)
/-- A for: every match is tried. -/
def reachFor (τ : Nat → Bool) : Mats → List Nat
  | .nil => []
  | .cons id _ body rest => id :: ((if τ id then reachB τ body else []) ++ reachFor τ rest)
end

mutual
/-- no for statement inside -/
def noForD : Dcl → Prop
  | .plain _ => True
  | .modul _ _ => True
  | .group _ body => noForB body
  | .ifS _ _ t f => noForB t ∧ noForB f
  | .caseS _ ms d => noForM ms ∧ noForB d
  | .forS _ _ => False
/-- see `noForD` -/
def noForB : Blk → Prop
  | .nil => True
  | .cons d rest => noForD d ∧ noForB rest
/-- see `noForD` -/
def noForM : Mats → Prop
  | .nil => True
  | .cons _ _ body rest => noForB body ∧ noForM rest
end

end Aps.IfCond

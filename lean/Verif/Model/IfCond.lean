import Verif.Model.Oag
/-!
# analyze/aps-dnc.c: numbering conditionals and the conditions of declarations

Simplifications.
* The syntax tree is reduced to what the traversals look at: declarations, whether they nest blocks or matches,
  and the `if_index` fields stored in if statements and matches. `id` is the identity of a node.
  Matches (`Mats`) have an identity of their own. A `group` is any other declaration with declarations inside
  (a top-level match, a function, ...); a `modul` is a module declaration.
* The info fields are zero before the analysis (they are allocated zeroed).
* `get_match_tests` (aps-dnc.c:490-517) only links test expressions and is left out.
-/
namespace Aps.IfCond
open Aps.Dnc Aps.Oag

mutual
/-- Declarations -/
inductive Dcl
  | plain (id : Nat)
  | modul (id : Nat) (body : Blk)
  | group (id : Nat) (body : Blk)
  | ifS (id ix : Nat) (t f : Blk)
  | caseS (id : Nat) (ms : Mats) (dflt : Blk)
  | forS (id : Nat) (ms : Mats)
/-- Blocks -/
inductive Blk
  | nil
  | cons (d : Dcl) (rest : Blk)
/-- Sequences of matches: identity, `if_index`, body -/
inductive Mats
  | nil
  | cons (id ix : Nat) (body : Blk) (rest : Mats)
end

/-- analyze/aps-dnc.c:453-458 — number the matches of a case. -/
def numMats : Mats → Nat → Mats × Nat
  | .nil, c => (.nil, c)
  | .cons id _ body rest, c =>
    let r := numMats rest (c + 1)
    (.cons id c body r.1, r.2)

mutual
/-- analyze/aps-dnc.c:443-464 — `count_if_rules` with the traversal of the tree below the declaration. -/
def countD : Dcl → Nat → Dcl × Nat
  | .plain id, c => (.plain id, c)
  | .modul id body, c => (.modul id body, c)
  | .group id body, c => let r := countB body c; (.group id r.1, r.2)
  | .ifS id _ t f, c =>
    let rt := countB t (c + 1)
    let rf := countB f rt.2
    (.ifS id c rt.1 rf.1, rf.2)
  | .caseS id ms d, c =>
    let k := numMats ms c
    let rm := countM ms k.2
    let rd := countB d rm.2
    (.caseS id (numMats rm.1 c).1 rd.1, rd.2)
  | .forS id ms, c => let r := countM ms c; (.forS id r.1, r.2)
/-- the traversal of a block -/
def countB : Blk → Nat → Blk × Nat
  | .nil, c => (.nil, c)
  | .cons d rest, c =>
    let r := countD d c
    let q := countB rest r.2
    (.cons r.1 q.1, q.2)
/-- the traversal of the bodies of matches (their own numbers are set at the case statement) -/
def countM : Mats → Nat → Mats × Nat
  | .nil, c => (.nil, c)
  | .cons id ix body rest, c =>
    let r := countB body c
    let q := countM rest r.2
    (.cons id ix r.1 q.1, q.2)
end

/-- analyze/aps-dnc.c:477-479 — the array writes for the matches of a case. -/
def ruleMats : Mats → List (Nat × Nat)
  | .nil => []
  | .cons id ix _ rest => (ix, id) :: ruleMats rest

mutual
/-- analyze/aps-dnc.c:466-487 — `get_if_rules`: the writes `array[index] = node`, in order. -/
def rulesD : Dcl → List (Nat × Nat)
  | .plain _ => []
  | .modul _ _ => []
  | .group _ body => rulesB body
  | .ifS id ix t f => (ix, id) :: (rulesB t ++ rulesB f)
  | .caseS _ ms d => ruleMats ms ++ (rulesM ms ++ rulesB d)
  | .forS _ ms => rulesM ms
/-- the traversal of a block -/
def rulesB : Blk → List (Nat × Nat)
  | .nil => []
  | .cons d rest => rulesD d ++ rulesB rest
/-- the traversal of the bodies of matches -/
def rulesM : Mats → List (Nat × Nat)
  | .nil => []
  | .cons _ _ body rest => rulesB body ++ rulesM rest
end

mutual
/-- analyze/aps-dnc.c:567-635 — `init_decl_cond`: the conditions stored, as pairs of node and condition
(`decl_cond` of declarations and `match_cond` of matches). -/
def condsD : Cond → Dcl → List (Nat × Cond)
  | c, .plain id => [(id, c)]
  | c, .modul id _ => [(id, c)]
  | c, .group id body => (id, c) :: condsB c body
  | c, .ifS id ix t f =>
    (id, c) :: (condsB ⟨c.pos ||| cmask ix, c.neg⟩ t ++ condsB ⟨c.pos, c.neg ||| cmask ix⟩ f)
  | c, .caseS id ms d => let r := condsCase c ms; (id, c) :: (r.1 ++ condsB r.2 d)
  | c, .forS id ms => (id, c) :: condsFor c ms
/-- the traversal of a block -/
def condsB : Cond → Blk → List (Nat × Cond)
  | _, .nil => []
  | c, .cons d rest => condsD c d ++ condsB c rest
/-- aps-dnc.c:598-605 — the loop over the matches of a case; `c` is `new_cond`, whose last value is returned. -/
def condsCase : Cond → Mats → List (Nat × Cond) × Cond
  | c, .nil => ([], c)
  | c, .cons id ix body rest =>
    let c1 : Cond := ⟨c.pos ||| cmask ix, c.neg⟩
    let c2 : Cond := ⟨c1.pos &&& ~~~cmask ix, c1.neg ||| cmask ix⟩
    let r := condsCase c2 rest
    ((id, c) :: (condsB c1 body ++ r.1), r.2)
/-- aps-dnc.c:618-625 — the loop over the matches of a for. -/
def condsFor : Cond → Mats → List (Nat × Cond)
  | _, .nil => []
  | c, .cons id ix body rest =>
    let c1 : Cond := ⟨c.pos ||| cmask ix, c.neg⟩
    (id, c) :: (condsB c1 body ++ condsFor ⟨c1.pos &&& ~~~cmask ix, c1.neg⟩ rest)
end

/-- analyze/aps-dnc.c:1929-1943 — number the conditionals, stop if there are more than 32, collect them and store
the conditions. -/
def analyse (b : Blk) : Res (List (Nat × Nat) × List (Nat × Cond)) :=
  let r := countB b 0
  if r.2 > 32 then .stop else .ok (rulesB r.1, condsB ⟨0, 0⟩ r.1)

end Aps.IfCond

import Verif.Model.Points
import Verif.Model.Dfa
/-!
# analyze/aps-fiber.c: from the object and use sets to the automaton

After the object and use sets are computed (Model/Points), `fiber_module` numbers the declarations and uses
(`count_node`), builds an automaton (`build_FSA`) and makes the tree of fibers from it (Model/Dfa).

Simplifications.
* The declarations and uses in the order of the traversal of `count_node` are given as a list of items, because the
  programs of Model/Points do not contain all declarations (formals, functions, phyla, shared info attributes).
* The edges that `build_FSA` adds at every declaration for its two sets (2253-2254) are added for the items first, and
  those of the module after them; the order of the calls of `add_FSA_edge` matters to nothing that is proved about the tree.
* `doOU` and `doUO` are called again while the automaton is built; the sets no longer change then (Proofs/Fsa
  `called_nil`), so the state they return is dropped.
* A node set is a list of numbers; `Points.Expr.const` and `other` are the constants and the expressions that
  `link_expr_rhs` complains about.
-/
namespace Aps.Fsa
open Aps.Points (Prog Expr Pat Use)
open Aps.Dfa (Lab Edge addNode)

/-- what `count_node` finds: a declaration, which is numbered in any case if it is a field or a shared variable
(aps-fiber.c:2003-2024), or an expression that is numbered (2031-2052: a field reference, or a use of a shared variable
where there is a responsible node). -/
inductive Item
  | decl (d : Nat) (always : Bool)
  | use (i : Nat)
  deriving DecidableEq

/-- the indices (0: none), the next index (aps-fiber.c:1897), `omega` (1900) and `all_fields_list` (1953) -/
structure Num where
  decl : Nat → Nat
  expr : Nat → Nat
  next : Nat
  omega : List Nat
  fields : List Nat

def Num.zero : Num := { decl := fun _ => 0, expr := fun _ => 0, next := 4, omega := [], fields := [] }

/-- aps-fiber.c:1905-1932 (`id_decl_node`) -/
def idDecl (d : Nat) (N : Num) : Num :=
  if 0 < N.decl d then N
  else { N with decl := fun x => if x = d then N.next else N.decl x, next := N.next + 2,
                omega := addNode (addNode N.omega N.next) (N.next + 1) }

/-- aps-fiber.c:1935-1951 (`id_expr_node`) -/
def idExpr (i : Nat) (N : Num) : Num :=
  if 0 < N.expr i then N
  else { N with expr := fun x => if x = i then N.next else N.expr x, next := N.next + 2 }

/-- aps-fiber.c:1955-1961, 2008-2013 -/
def noteField (d : Nat) (N : Num) : Num := if d ∈ N.fields then N else { N with fields := d :: N.fields }

/-- aps-fiber.c:1991-2061 (`count_node`) -/
def countItem (st : Points.St) (it : Item) (N : Num) : Num :=
  match it with
  | .decl d always =>
    let N := if st.O d ≠ [] ∨ st.U d ≠ [] then idDecl d N else N
    if always then noteField d (idDecl d N) else N
  | .use i => idExpr i N

/-- aps-fiber.c:3254-3264 -/
def count (st : Points.St) : List Item → Num → Num
  | [], N => N
  | it :: its, N => count st its (countItem st it N)

/-- aps-fiber.c:1898 -/
def dfltNode : Nat := 2

/-- aps-fiber.c:2514-2521 (`set_of_node`) -/
def setOf (n : Nat) : List Nat := if n = 0 then [dfltNode] else if n = 1 then [dfltNode + 1] else [n]

/-- aps-fiber.c:2480-2496 (`nodeset_union`) -/
def nunion (a b : List Nat) : List Nat := b.foldl (fun a x => if x ∈ a then a else x :: a) a

/-- everything that is looked up while the automaton is built; `fieldsOf` are the fields of the phylum of an object -/
structure Env where
  P : Prog
  st : Points.St
  num : Num
  fieldsOf : Nat → List Nat

/-- aps-fiber.c:2562-2571 (`oset_to_nodeset`) -/
def osetNodes (C : Env) (os : List Nat) : List Nat := os.foldl (fun ns o => addNode ns (C.num.decl o)) []

/-- aps-fiber.c:2573-2582 (`uset_to_nodeset`) -/
def usetNodes (C : Env) (us : List Use) : List Nat := us.foldl (fun ns u => addNode ns (C.num.expr u.id)) []

/-- aps-fiber.c:2586, 2694: a set of the default node takes the place of the set passed in if the type is not local. -/
def cutN (lt : Bool) (ns : List Nat) : List Nat := if lt then ns else [dfltNode]

/-- aps-fiber.c:2608-2613, 2636-2641 (`l` is the field), 2711-2717, 2733-2739 (`l` is the reversed field): the edges from
the two nodes of the expression with the index `q`. -/
def refEdges (q : Nat) (l : Lab) : List Nat → List Edge
  | [] => []
  | n :: ns => ⟨q + 1, n, some l⟩ :: ⟨q, n, some { l with rev := !l.rev }⟩ :: refEdges q l ns

mutual
/-- aps-fiber.c:2584-2690 (`link_expr_rhs`): the nodes of the value, and the edges added. `r` is the shared info attribute
of the responsible node, if there is one. -/
def linkRhs (C : Env) (r : Option Nat) : Expr → List Nat → Res (List Nat × List Edge)
  | .const, _ => .ok ([dfltNode], [])
  | .other, _ => .ok ([], [])
  | .rep lt e, ns => linkRhs C r e (cutN lt ns)
  | .use i lt d, ns =>
    if C.P.isLocal d then
      if C.P.isShared d ∧ r.isSome then do
        let x ← Points.doOU C.P r (.use i lt d) [] C.st
        .ok (osetNodes C x.1, refEdges (C.num.expr i) ⟨d, false⟩ (cutN lt ns))
      else .ok (setOf (C.num.decl d), [])
    else .ok ([dfltNode], [])
  | .attrRef _ a, _ => .ok (setOf (C.num.decl a), [])
  | .fieldRef i lt f w, ns => do
    let y ← linkRhs C r w (setOf (C.num.expr i + 1))
    let x ← Points.doOU C.P r (.fieldRef i lt f w) [] C.st
    .ok (osetNodes C x.1, refEdges (C.num.expr i) ⟨f, false⟩ (cutN lt ns) ++ y.2)
  | .call _ g args, _ => do
    let es ← linkActuals C r (C.P.formals g) args
    .ok (setOf (C.num.decl (C.P.result g)), es)
  | .prim lt args, ns => linkPrims C r args (cutN lt ns) []
/-- aps-fiber.c:2667-2677; a missing formal is a fatal error (499-514). -/
def linkActuals (C : Env) (r : Option Nat) : List Nat → List Expr → Res (List Edge)
  | _, [] => .ok []
  | [], _ :: _ => .stop
  | f :: fs, a :: as => do
    let x ← linkRhs C r a (setOf (C.num.decl f + 1))
    let es ← linkActuals C r fs as
    .ok (x.2 ++ es)
/-- aps-fiber.c:2680-2685 -/
def linkPrims (C : Env) (r : Option Nat) : List Expr → List Nat → List Nat → Res (List Nat × List Edge)
  | [], _, acc => .ok (acc, [])
  | a :: as, ns, acc => do
    let x ← linkRhs C r a ns
    let y ← linkPrims C r as ns (nunion acc x.1)
    .ok (y.1, x.2 ++ y.2)
end

/-- aps-fiber.c:2692-2755 (`link_expr_lhs`), in the assignment `a`. The object of a field is given to the same function. -/
def linkLhs (C : Env) (r : Option Nat) (a : Nat) : Expr → List Nat → Res (List Nat × List Edge)
  | .rep lt e, ns => linkLhs C r a e (cutN lt ns)
  | .use i lt d, ns =>
    if C.P.isLocal d ∧ C.P.isShared d ∧ r.isSome then do
      let x ← Points.doUO C.P r a [] C.st (.use i lt d)
      .ok (usetNodes C x.1, refEdges (C.num.expr i) ⟨d, true⟩ (cutN lt ns))
    else .ok (setOf (C.num.decl d + 1), [])
  | .attrRef _ b, _ => .ok (setOf (C.num.decl b + 1), [])
  | .fieldRef i lt f w, ns => do
    let y ← linkLhs C r a w (setOf (C.num.expr i + 1))
    let x ← Points.doUO C.P r a [] C.st (.fieldRef i lt f w)
    .ok (usetNodes C x.1, refEdges (C.num.expr i) ⟨f, true⟩ (cutN lt ns) ++ y.2)
  | .call _ _ _, _ => .ok ([], [])
  | .prim _ _, _ => .ok ([], [])
  | .const, _ => .ok ([], [])
  | .other, _ => .ok ([], [])

mutual
/-- aps-fiber.c:2169-2211 (`link_expr_lhs_p`). The set passed in is not used. -/
def linkPat (C : Env) : Pat → List Nat
  | .other => []
  | .none => []
  | .and _ p q => nunion (linkPat C p) (linkPat C q)
  | .var _ d => if C.num.decl d = 0 then [] else setOf (C.num.decl d + 1)
  | .call _ args => linkPats C args []
  | .rest _ p => linkPat C p
  | .cond _ => []
/-- aps-fiber.c:2197-2202 -/
def linkPats (C : Env) : List Pat → List Nat → List Nat
  | [], acc => acc
  | p :: ps, acc => linkPats C ps (nunion acc (linkPat C p))
end

/-- `link_expr_rhs` for its edges only -/
def linkE (C : Env) (r : Option Nat) (e : Expr) (ns : List Nat) : Res (List Edge) := do
  let x ← linkRhs C r e ns
  .ok x.2

/-- aps-fiber.c:2416-2422 — the expressions the traversal reaches. -/
def linkEs (C : Env) (r : Option Nat) : List Expr → Res (List Edge)
  | [] => .ok []
  | e :: es => do
    let x ← linkE C r e [dfltNode]
    let y ← linkEs C r es
    .ok (x ++ y)

/-- the default of a declaration, as the traversal reaches it -/
def linkO (C : Env) (r : Option Nat) : Option Expr → Res (List Edge)
  | none => .ok []
  | some e => linkE C r e [dfltNode]

/-- aps-fiber.c:2408-2411 — the loop over the matches. -/
def linkMatches (C : Env) (r : Option Nat) (e : Expr) : Points.Node → Res (List Edge)
  | .mtch p _ next => do
    let x ← linkE C r e (linkPat C p)
    let y ← linkMatches C r e next
    .ok (x ++ y)
  | _ => .ok []

/-- aps-fiber.c:2299-2322: an object -/
def objEdges (C : Env) (d : Nat) : List Edge :=
  (C.fieldsOf d).map (fun f => ⟨C.num.decl d, C.num.decl f, some ⟨f, false⟩⟩) ++
    (C.st.U d).map fun u => ⟨C.num.decl d, C.num.expr u.id, none⟩

/-- aps-fiber.c:2323-2339: any other value -/
def initEdges (C : Env) (r : Option Nat) (d : Nat) : Option Expr → Res (List Edge)
  | none => .ok []
  | some e => linkE C r e (setOf (C.num.decl d + 1))

/-- aps-fiber.c:2298-2339 -/
def valueEdges (C : Env) (r : Option Nat) (d : Nat) (isNew : Bool) (init : Option Expr) : Res (List Edge) :=
  if isNew then .ok (objEdges C d) else initEdges C r d init

/-- aps-fiber.c:2340-2365: a shared variable -/
def sharedEdges (C : Env) (d : Nat) : List Edge :=
  if C.P.isShared d then
    [⟨C.num.decl C.P.module, C.num.decl d, some ⟨d, false⟩⟩, ⟨C.num.decl C.P.module + 1, C.num.decl d, some ⟨d, true⟩⟩,
      ⟨C.num.decl C.P.module, dfltNode, some ⟨d, true⟩⟩]
  else []

/-- aps-fiber.c:2395-2401 -/
def formalNodes (C : Env) (d : Nat) : List Nat := if 0 < C.num.decl d then setOf (C.num.decl d + 1) else []

/-- aps-fiber.c:2236-2425 (`build_FSA`) with the traversal of parse/aps-traverse.c, but for the edges of `declEdges` and
`moduleEdges`. An assignment is not traversed further. -/
def buildNode (C : Env) : Option Nat → Points.Node → Res (List Edge)
  | _, .skip => .ok []
  | r, .seq a b => do
    let x ← buildNode C r a
    let y ← buildNode C r b
    .ok (x ++ y)
  | r, .value d isNew init => do
    let x ← valueEdges C r d isNew init
    let y ← linkO C r init
    .ok (x ++ sharedEdges C d ++ y)
  | r, .attr _ init => linkO C r init
  | r, .expr e => linkE C r e [dfltNode]
  | r, .assign d lhs rhs => do
    let m ← linkLhs C r d lhs []
    let n ← linkRhs C r rhs m.1
    let l ← linkLhs C r d lhs n.1
    .ok (m.2 ++ n.2 ++ l.2)
  | r, .ifs c t e => do
    let x ← linkE C r c [dfltNode]
    let y ← buildNode C r t
    let z ← buildNode C r e
    .ok (x ++ y ++ z)
  | r, .forIn formal s body => do
    let x ← linkE C r s (formalNodes C formal)
    let y ← linkE C r s [dfltNode]
    let z ← buildNode C r body
    .ok (x ++ y ++ z)
  | r, .cases e ms dflt => do
    let x ← linkE C r e []
    let m ← linkMatches C r e ms
    let y ← linkE C r e [dfltNode]
    let z ← buildNode C r ms
    let w ← buildNode C r dflt
    .ok (x ++ m ++ y ++ z ++ w)
  | r, .mtch p body next => do
    let x ← linkEs C r p.conds
    let y ← buildNode C r body
    let z ← buildNode C r next
    .ok (x ++ y ++ z)
  | _, .rule si _ p body => do
    let x ← linkEs C (some si) p.conds
    let y ← buildNode C (some si) body
    .ok (x ++ y)
  | _, .func si body => buildNode C (some si) body

/-- aps-fiber.c:2220-2234, 2253-2254 (`add_edges_oset`, `add_edges_uset`) -/
def declEdges (C : Env) : List Item → List Edge
  | [] => []
  | .decl d _ :: its =>
    (C.st.O d).map (fun o => ⟨C.num.decl d, C.num.decl o, none⟩) ++
      (C.st.U d).map (fun u => ⟨C.num.decl d + 1, C.num.expr u.id + 1, none⟩) ++ declEdges C its
  | .use _ :: its => declEdges C its

/-- aps-fiber.c:2258-2267 -/
def moduleEdges (C : Env) : List Edge :=
  (C.st.U C.P.module).map fun u => ⟨C.num.decl C.P.module, C.num.expr u.id, none⟩

/-- aps-fiber.c:3283-3292: all calls of `add_FSA_edge` -/
def buildFsa (C : Env) (items : List Item) : Res (List Edge) := do
  let es ← buildNode C none C.P.body
  .ok (declEdges C items ++ moduleEdges C ++ es)

/-- aps-fiber.c:2239-2243: `omega` when the tree is made -/
def omegaOf (N : Num) : List Nat := addNode (addNode N.omega dfltNode) (dfltNode + 1)

/-- aps-fiber.c:3198-3304 (`fiber_module`) from the object sets to the tree -/
def fiberModule (P : Prog) (fieldsOf : Nat → List Nat) (items : List Item) (fuel max : Nat) :
    Res (Points.St × Num × List Edge × Dfa.St) := do
  let st ← Points.analyze P fuel
  let N := count st items Num.zero
  let E ← buildFsa ⟨P, st, N, fieldsOf⟩ items
  let D ← Dfa.fiberTree E (omegaOf N) N.fields max fuel
  .ok (st, N, E, D)

end Aps.Fsa

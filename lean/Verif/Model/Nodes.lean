import Verif.Model.Service
/-!
# Nodes: what generated constructors do

The classes that both generators print for a constructor, and the run-time system that their code calls (`Phylum::install`,
`set_parent`, `register`).

Simplifications.  A node's address is its position in the list of all nodes.  A value of a field is a node, nil, or anything else.
Calls have as many arguments as there are formals, and arguments that are nodes are nodes that there are (`Spec/Nodes.lean`).
Types are those of `Service`.  Line numbers and printing are left out.
-/
namespace Aps.Nodes
open Aps.Service (Ty TDef)

/-- A constructor: the declaration of the type it is built on, whether that is a phylum, and the types of its formals. -/
structure Con where
  base : Nat
  «syntax» : Bool
  formals : List Ty

/-- `phylumModule m`: `module_decl_result_type` of the module is a phylum. -/
structure Prog where
  con : Nat → Con
  tdef : Nat → TDef
  phylumModule : Nat → Bool

/-! ### The generators -/

/-- `apscpp/dump-cpp.cc:1523-1546`: whether there is `_f->set_parent(this)` for a formal of this type. -/
def cppChild (P : Prog) : Ty → Bool
  | .use u =>
    match P.tdef u with
    | .phylumDecl _ => true
    | .phylumFormal _ => true
    | _ => false
  | _ => false

/-- `dump-cpp.cc:1482-1546`: for each formal whether the body of the C++ constructor has a `set_parent`. -/
def cppMarks (P : Prog) (c : Nat) : List Bool := (P.con c).formals.map (cppChild P)

/-- `aps2scala/dump-scala.cc:411-460` (`type_is_syntax`).  After the error for another kind of declaration the next case reads the
type as an instance. -/
def typeIsSyntax (P : Prog) : Nat → Ty → Res Bool
  | 0, _ => .nofuel
  | _ + 1, .noType => .ok false
  | _ + 1, .remote _ => .ok false
  | _ + 1, .priv _ => .ok false
  | _ + 1, .func => .ok false
  | fuel + 1, .use u =>
    match P.tdef u with
    | .phylumFormal _ => .ok true
    | .phylumDecl _ => .ok true
    | .typeFormal _ => .ok false
    | .typeDecl _ => .ok false
    | .renaming t => typeIsSyntax P fuel t
    | .other => .ub
  | _ + 1, .inst m => .ok (P.phylumModule m)

/-- `dump-scala.cc:1782-1793`: for each formal whether it is in `children`; a constructor of a type has none. -/
def scalaMarks (P : Prog) (fuel : Nat) : List Ty → Res (List Bool)
  | [] => .ok []
  | t :: ts => (typeIsSyntax P fuel t).bind fun b => (scalaMarks P fuel ts).bind fun bs => .ok (b :: bs)

/-! ### Running -/

/-- Values of fields. -/
inductive Val where
  | node (a : Nat)
  | nil
  | prim (v : Nat)
  deriving DecidableEq

/-- The member `parent`. -/
inductive Par where
  | garbage
  | null
  | node (a : Nat)
  deriving DecidableEq

structure Node where
  con : Nat
  number : Nat
  par : Par
  fields : List Val
  deriving DecidableEq

/-- `phyla p`: `Phylum::nodes`; `closed p`: `complete`, or frozen in Scala. -/
structure Heap where
  nodes : List Node
  phyla : Nat → List Nat
  closed : Nat → Bool

/-- `base/cpp/aps-impl.h:77` (`set_parent`), called for the argument `v` by the node `a`. -/
def setCpp (a : Nat) (ns : List Node) : Val → Res (List Node)
  | .node x =>
    match ns[x]? with
    | some n => if x < a then .ok (ns.set x { n with par := .node a }) else .ub
    | none => .ub
  | _ => .ub

/-- `base/scala/aps-impl.scala:118-121`: a round of the loop of `register`. -/
def setScala (a : Nat) (ns : List Node) : Val → Res (List Node)
  | .node x =>
    match ns[x]? with
    | some n => if x < a then (if n.par = .null then .ok (ns.set x { n with par := .node a }) else .stop) else .ub
    | none => .ub
  | _ => .stop

/-- The calls for the marked arguments. -/
def linkAll (set : List Node → Val → Res (List Node)) : List Bool → List Val → List Node → Res (List Node)
  | true :: ms, v :: vs, ns => (set ns v).bind (linkAll set ms vs)
  | false :: ms, _ :: vs, ns => linkAll set ms vs ns
  | _, _, ns => .ok ns

/-- A new node at the end, in the list of its phylum (`base/cpp/aps-impl.cpp:160-162, 188-193`, `aps-impl.scala:117, 129-136`). -/
def addNode (C : Con) (c : Nat) (par : Par) (args : List Val) (h : Heap) : Heap where
  nodes := h.nodes ++ [⟨c, (h.phyla C.base).length, par, args⟩]
  phyla := fun p => if p = C.base then h.phyla p ++ [h.nodes.length] else h.phyla p
  closed := h.closed

/-- A node of a type that is not a phylum. -/
def addPlain (c : Nat) (args : List Val) (h : Heap) : Heap := { h with nodes := h.nodes ++ [⟨c, 0, .null, args⟩] }

/-- `dump-cpp.cc:1482-1577`: `v_c(args)`.  `C_NULL_PHYLUM::Node::Node` does not initialize `parent`.  For a constructor of a type a
`set_parent` does not compile, because `this` is not a node of a phylum. -/
def buildCpp (P : Prog) (c : Nat) (args : List Val) (h : Heap) : Res Heap :=
  if (P.con c).syntax then
    if h.closed (P.con c).base then .stop
    else (linkAll (setCpp h.nodes.length) (cppMarks P c) args (addNode (P.con c) c .garbage args h).nodes).bind fun ns =>
      .ok { addNode (P.con c) c .garbage args h with nodes := ns }
  else if (cppMarks P c).any id then .stop
  else .ok (addPlain c args h)

/-- `dump-scala.cc:1773-1793, 1399-1403`: `v_c(args)`, with `register` for a constructor of a phylum. -/
def buildScala (P : Prog) (marks : Nat → List Bool) (c : Nat) (args : List Val) (h : Heap) : Res Heap :=
  if (P.con c).syntax then
    if h.closed (P.con c).base then .stop
    else (linkAll (setScala h.nodes.length) (marks c) args (addNode (P.con c) c .null args h).nodes).bind fun ns =>
      .ok { addNode (P.con c) c .null args h with nodes := ns }
  else .ok (addPlain c args h)

/-! ### Tags -/

/-- `dump-cpp.cc:1390-1406`: the enumeration of a type: the constructors built on it, in the order of the body. -/
def enumOf (body : List (Nat × Nat)) (t : Nat) : List Nat := (body.filter fun d => d.2 = t).map _root_.Prod.fst

/-- `dump-cpp.cc:1566-1569` with `base/cpp/aps-impl.cpp:179-184, 217-222`: the initializers `c_d(new Constructor(t,"d",p_d))`, in
order; `reg t`: the constructors of the type so far. -/
def initAll (body : List (Nat × Nat)) : List (Nat × Nat) → (Nat → List Nat) → Res (Nat → List Nat)
  | [], reg => .ok reg
  | (d, t) :: ds, reg =>
    if (enumOf body t).idxOf d = (reg t).length then initAll body ds (fun u => if u = t then reg t ++ [d] else reg u)
    else .stop

end Aps.Nodes

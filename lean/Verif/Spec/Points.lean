import Verif.Model.Points
/-!
# Specification of the object flow analysis

Independent of the analysis: where values flow in a program, as a graph on locations (declarations and expressions).
Nothing here mentions sets, traversal order or iteration; only the syntax of programs is shared with the model.
-/
namespace Aps.Points.Spec
open Aps.Points

/-- `Occurs n r m r'`: inside `n` (whose responsible shared info is `r`) occurs `m`, whose responsible shared info is `r'`. -/
inductive Occurs : Node → Option Nat → Node → Option Nat → Prop
  | here (n r) : Occurs n r n r
  | seqL {a b r m r'} : Occurs a r m r' → Occurs (.seq a b) r m r'
  | seqR {a b r m r'} : Occurs b r m r' → Occurs (.seq a b) r m r'
  | ifT {c t e r m r'} : Occurs t r m r' → Occurs (.ifs c t e) r m r'
  | ifE {c t e r m r'} : Occurs e r m r' → Occurs (.ifs c t e) r m r'
  | loop {f s b r m r'} : Occurs b r m r' → Occurs (.forIn f s b) r m r'
  | caseM {e ms d r m r'} : Occurs ms r m r' → Occurs (.cases e ms d) r m r'
  | caseD {e ms d r m r'} : Occurs d r m r' → Occurs (.cases e ms d) r m r'
  | matchB {p b n r m r'} : Occurs b r m r' → Occurs (.mtch p b n) r m r'
  | matchN {p b n r m r'} : Occurs n r m r' → Occurs (.mtch p b n) r m r'
  | rule {si ks p b r m r'} : Occurs b (some si) m r' → Occurs (.rule si ks p b) r m r'
  | func {si b r m r'} : Occurs b (some si) m r' → Occurs (.func si b) r m r'

/-- a node of the program -/
def At (P : Prog) (m : Node) (r : Option Nat) : Prop := Occurs P.body none m r

/-- the pattern has this condition -/
inductive HasCond : Pat → Expr → Prop
  | cond (e) : HasCond (.cond e) e
  | andL {lt p q e} : HasCond p e → HasCond (.and lt p q) e
  | andR {lt p q e} : HasCond q e → HasCond (.and lt p q) e
  | call {lt ps p e} : p ∈ ps → HasCond p e → HasCond (.call lt ps) e
  | rest {lt p e} : HasCond p e → HasCond (.rest lt p) e

/-- `HasVar p d ok`: the pattern binds `d`; `ok` says that `d` and the patterns around it are of local types. -/
inductive HasVar : Pat → Nat → Bool → Prop
  | var (lt d) : HasVar (.var lt d) d lt
  | andL {lt p q d k} : HasVar p d k → HasVar (.and lt p q) d (lt && k)
  | andR {lt p q d k} : HasVar q d k → HasVar (.and lt p q) d (lt && k)
  | call {lt ps p d k} : p ∈ ps → HasVar p d k → HasVar (.call lt ps) d (lt && k)
  | rest {lt p d k} : HasVar p d k → HasVar (.rest lt p) d (lt && k)

/-- the matches of a case statement -/
inductive MatchOf : Node → Pat → Prop
  | here (p b n) : MatchOf (.mtch p b n) p
  | next {p b n q} : MatchOf n q → MatchOf (.mtch p b n) q

/-- an expression that is evaluated somewhere in the program -/
inductive ExprAt (P : Prog) : Option Nat → Expr → Prop
  | init {d k e r} : At P (.value d k (some e)) r → ExprAt P r e
  | dflt {d e r} : At P (.attr d (some e)) r → ExprAt P r e
  | expr {e r} : At P (.expr e) r → ExprAt P r e
  | rhs {d l e r} : At P (.assign d l e) r → ExprAt P r e
  | lhsObj {d i lt f w e r} : At P (.assign d (.fieldRef i lt f w) e) r → ExprAt P r w
  | test {c t e r} : At P (.ifs c t e) r → ExprAt P r c
  | loop {f s b r} : At P (.forIn f s b) r → ExprAt P r s
  | case {e ms d r} : At P (.cases e ms d) r → ExprAt P r e
  | condM {p b n e r} : At P (.mtch p b n) r → HasCond p e → ExprAt P r e
  | condR {si ks p b e r} : At P (.rule si ks p b) r → HasCond p e → ExprAt P (some si) e
  | rep {lt e r} : ExprAt P r (.rep lt e) → ExprAt P r e
  | obj {i lt f w r} : ExprAt P r (.fieldRef i lt f w) → ExprAt P r w
  | arg {lt g as a r} : ExprAt P r (.call lt g as) → a ∈ as → ExprAt P r a
  | prim {lt as a r} : ExprAt P r (.prim lt as) → a ∈ as → ExprAt P r a

/-- where a value can be -/
inductive Loc
  | decl (d : Nat)
  | expr (e : Expr)

/-- `Edge x y o u`: what is in `x` gets to `y` directly. `o = false`: the objects in `x` are not counted as being in `y`
because a type in between cannot carry an object; `u = false`: the same for the uses of `y`. -/
inductive Edge (P : Prog) : Loc → Loc → Bool → Bool → Prop
  | use {i lt d} : P.isLocal d = true → Edge P (.decl d) (.expr (.use i lt d)) true lt
  | attrRef {lt a} : Edge P (.decl a) (.expr (.attrRef lt a)) true lt
  | rep {lt e} : Edge P (.expr e) (.expr (.rep lt e)) true lt
  | prim {lt as a} : a ∈ as → Edge P (.expr a) (.expr (.prim lt as)) true lt
  | result {lt g as} : Edge P (.decl (P.result g)) (.expr (.call lt g as)) true lt
  | arg {r lt g as a f} {i : Nat} : ExprAt P r (.call lt g as) → as[i]? = some a → (P.formals g)[i]? = some f →
      Edge P (.expr a) (.decl f) true true
  | callee {r lt g as} : ExprAt P (some r) (.call lt g as) → Edge P (.decl r) (.decl (P.siOf g)) true true
  | init {d k e r} : At P (.value d k (some e)) r → Edge P (.expr e) (.decl d) true true
  | rhs {d l e r} : At P (.assign d l e) r → Edge P (.expr e) (.decl d) true true
  | lhsUse {d i lt x e r} : At P (.assign d (.use i lt x) e) r → P.isLocal x = true → Edge P (.decl d) (.decl x) lt true
  | lhsAttr {d lt a e r} : At P (.assign d (.attrRef lt a) e) r → Edge P (.decl d) (.decl a) lt true
  | loop {f s b r} : At P (.forIn f s b) r → Edge P (.expr s) (.decl f) true true
  | case {e ms d r p v k} : At P (.cases e ms d) r → MatchOf ms p → HasVar p v k → Edge P (.expr e) (.decl v) k true
  | child {si ks p b r k} : At P (.rule si ks p b) r → k ∈ ks → Edge P (.decl si) (.decl k) true true
  | root : Edge P (.decl P.module) (.decl P.startSi) true true

/-- an object: the module, or a variable initialised with a constructor call -/
def Obj (P : Prog) (o : Nat) : Prop := o = P.module ∨ ∃ init r, At P (.value o true init) r

/-- `UseAt y u`: the use `u` looks at the value in `y` (a field of it, or a shared variable found through it). -/
inductive UseAt (P : Prog) : Loc → Use → Prop
  | read {r i lt f w} : ExprAt P r (.fieldRef i lt f w) → UseAt P (.expr w) ⟨i, some f, none⟩
  | write {r d i lt f w e} : At P (.assign d (.fieldRef i lt f w) e) r → UseAt P (.expr w) ⟨i, some f, some d⟩
  | readShared {r i lt d} : ExprAt P (some r) (.use i lt d) → P.isLocal d = true → P.isShared d = true →
      UseAt P (.decl r) ⟨i, some d, none⟩
  | writeShared {r d i lt x e} : At P (.assign d (.use i lt x) e) (some r) → P.isLocal x = true →
      P.isShared x = true → UseAt P (.decl r) ⟨i, some x, some d⟩

/-- `Flow P true x y`: objects in `x` get to `y`; `Flow P false x y`: uses of `y` are uses of `x`. A field is read as all
the values assigned to it for an object in question. -/
inductive Flow (P : Prog) : Bool → Loc → Loc → Prop
  | refl (b x) : Flow P b x x
  | step {b x y z o u} : Flow P b x y → Edge P y z o u → (if b then o else u) = true → Flow P b x z
  | field {b x a o w y q f i lt} : Flow P b x (.decl a) → Obj P o → Flow P true (.decl o) (.expr w) →
      Flow P false (.decl o) y → UseAt P y ⟨q, some f, some a⟩ → (b = true ∨ lt = true) →
      Flow P b x (.expr (.fieldRef i lt f w))

/-- the object can get to the declaration -/
def Holds (P : Prog) (d o : Nat) : Prop := Obj P o ∧ Flow P true (.decl o) (.decl d)

/-- the value of the declaration can get to the use -/
def UsedBy (P : Prog) (d : Nat) (u : Use) : Prop := ∃ y, Flow P false (.decl d) y ∧ UseAt P y u

/-- The plain reading, in which no type on the way excludes objects. -/
inductive Reaches (P : Prog) : Loc → Loc → Prop
  | refl (x) : Reaches P x x
  | step {x y z} : Reaches P x y → Edge P y z true true → Reaches P x z
  | field {x a o w y q f i} : Reaches P x (.decl a) → Obj P o → Reaches P (.decl o) (.expr w) →
      Reaches P (.decl o) y → UseAt P y ⟨q, some f, some a⟩ → Reaches P x (.expr (.fieldRef i true f w))

/-- What the code relies on: the left-hand side of an assignment is a variable, attribute or field; variables of the
module are assigned only inside rules and functions; syntax is not assigned; calls have no more actuals than formals. -/
structure Proper (P : Prog) : Prop where
  lhs : ∀ {d l e r}, At P (.assign d l e) r → (∃ i lt x, l = .use i lt x) ∨ (∃ lt a, l = .attrRef lt a) ∨
    ∃ i lt f w, l = .fieldRef i lt f w
  shared : ∀ {d i lt x e r}, At P (.assign d (.use i lt x) e) r → P.isShared x = true → r ≠ none
  syntactic : ∀ {d i lt x e r}, At P (.assign d (.use i lt x) e) r → P.isSyntax x = false ∨ P.isShared x = true
  actuals : ∀ {r lt g as}, ExprAt P r (.call lt g as) → as.length ≤ (P.formals g).length

/-- Nothing is assigned to the module itself. -/
def Alone (P : Prog) : Prop := ∀ x o u, ¬ Edge P x (.decl P.module) o u

end Aps.Points.Spec

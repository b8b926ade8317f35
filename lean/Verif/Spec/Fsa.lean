import Verif.Spec.Points
import Verif.Model.Fsa
/-!
# Specification: which fibers a variable has

A fiber is a word of fields and reversed fields. What a word means is said here in terms of the program alone: `Wants x w` —
something done with the value of `x` goes along the word `w`; `Has o w` — the object `o` has something to offer along `w`.
A forward field `f` is wanted where the field is read, and offered where it is assigned; a reversed field is wanted where
the field is assigned, and offered where it is read. After the first field the word goes on with the value that is read,
or with the value that is assigned. A value moves only through places whose types can hold objects (`Points.Spec.Reaches`).
-/
namespace Aps.Fsa.Spec
open Aps.Points Aps.Points.Spec
open Aps.Dfa (Lab)

/-- `ReadAt P r y i f lt e`: the expression `e` (number `i`; `lt`: its type can hold objects) reads the field `f` of what is in
`y`. A shared variable used inside a rule is read as a field of the shared information of the rule. -/
inductive ReadAt (P : Prog) : Option Nat → Loc → Nat → Nat → Bool → Expr → Prop
  | field {r i lt f w} : ExprAt P r (.fieldRef i lt f w) → ReadAt P r (.expr w) i f lt (.fieldRef i lt f w)
  | shared {r i lt d} : ExprAt P (some r) (.use i lt d) → P.isLocal d = true → P.isShared d = true →
      ReadAt P (some r) (.decl r) i d lt (.use i lt d)

/-- `WriteAt P r y i f lt a rhs`: the assignment `a` assigns `rhs` to the field `f` of what is in `y`. -/
inductive WriteAt (P : Prog) : Option Nat → Loc → Nat → Nat → Bool → Nat → Expr → Prop
  | field {r a i lt f w e} : At P (.assign a (.fieldRef i lt f w) e) r → WriteAt P r (.expr w) i f lt a e
  | shared {r a i lt x e} : At P (.assign a (.use i lt x) e) (some r) → P.isLocal x = true → P.isShared x = true →
      WriteAt P (some r) (.decl r) i x lt a e

/-- The left-hand side is a local variable: neither an attribute nor a shared variable inside a rule. -/
def OwnVar (P : Prog) (r : Option Nat) (x : Nat) : Prop := P.isLocal x = true → P.isShared x = true → r = none

/-- The value of the expression is used for more than looking into it: it is tested, given to a call or a pattern, or
kept in a variable or attribute (or it is part of something so used). -/
inductive Kept (P : Prog) : Option Nat → Expr → Prop
  | init {d k e r} : At P (.value d k (some e)) r → Kept P r e
  | dflt {d e r} : At P (.attr d (some e)) r → Kept P r e
  | expr {e r} : At P (.expr e) r → Kept P r e
  | rhs {a i lt x e r} : At P (.assign a (.use i lt x) e) r → OwnVar P r x → Kept P r e
  | rhsAttr {a lt b e r} : At P (.assign a (.attrRef lt b) e) r → Kept P r e
  | test {c t e r} : At P (.ifs c t e) r → Kept P r c
  | loop {f s b r} : At P (.forIn f s b) r → Kept P r s
  | case {e ms d r} : At P (.cases e ms d) r → Kept P r e
  | condM {p b n e r} : At P (.mtch p b n) r → HasCond p e → Kept P r e
  | condR {si ks p b e r} : At P (.rule si ks p b) r → HasCond p e → Kept P (some si) e
  | arg {lt g as a r} : ExprAt P r (.call lt g as) → a ∈ as → Kept P r a
  | rep {lt e r} : Kept P r (.rep lt e) → Kept P r e
  | prim {lt as a r} : Kept P r (.prim lt as) → a ∈ as → Kept P r a
  | repFlat {e r} : ExprAt P r (.rep false e) → Kept P r e
  | primFlat {as a r} : ExprAt P r (.prim false as) → a ∈ as → Kept P r a

/-- The value of the expression gets to the declaration. -/
inductive Goes (P : Prog) : Option Nat → Expr → Nat → Prop
  | init {d e r} : At P (.value d false (some e)) r → Goes P r e d
  | rhs {a i x e r} : At P (.assign a (.use i true x) e) r → P.isLocal x = true → OwnVar P r x → Goes P r e x
  | rhsAttr {a b e r} : At P (.assign a (.attrRef true b) e) r → Goes P r e b
  | loop {f s b r} : At P (.forIn f s b) r → Goes P r s f
  | case {e ms d r p v} : At P (.cases e ms d) r → MatchOf ms p → HasVar p v true → Goes P r e v
  | arg {lt g as a r f} {i : Nat} : ExprAt P r (.call lt g as) → as[i]? = some a → (P.formals g)[i]? = some f → Goes P r a f
  | rep {e r d} : Goes P r (.rep true e) d → Goes P r e d
  | prim {as a r d} : Goes P r (.prim true as) d → a ∈ as → Goes P r a d

/-- the value of the first expression is (part of) the value of the second -/
inductive Within : Expr → Expr → Prop
  | refl (e) : Within e e
  | rep {e e'} : Within e e' → Within e (.rep true e')
  | prim {e e' as} : Within e e' → e' ∈ as → Within e (.prim true as)

/-- the value of the expression is something, whatever objects there are -/
inductive Solid (P : Prog) : Option Nat → Expr → Prop
  | const {r} : Solid P r .const
  | far {r i lt d} : P.isLocal d = false → Solid P r (.use i lt d)
  | var {r i lt d} : OwnVar P r d → Solid P r (.use i lt d)
  | attr {r lt a} : Solid P r (.attrRef lt a)
  | call {r lt g as} : Solid P r (.call lt g as)
  | rep {r lt e} : Solid P r e → Solid P r (.rep lt e)
  | prim {r lt as a} : a ∈ as → Solid P r a → Solid P r (.prim lt as)

mutual
/-- The value that the expression `e` reads is wanted along the word: it is kept; or it gets to a place where the word is
wanted; or a field of it is read in turn. -/
inductive After (P : Prog) (fo : Nat → List Nat) : Option Nat → Bool → Expr → List Lab → Prop
  | kept {r lt e} : lt = false ∨ Kept P r e → After P fo r lt e []
  | goes {r e d z w} : Goes P r e d → Reaches P (.decl d) z → Dem P fo z w → After P fo r true e w
  | look {r e e2 i lt g w} : Within e e2 → ExprAt P r (.fieldRef i lt g e2) → After P fo r lt (.fieldRef i lt g e2) w →
      After P fo r true e (⟨g, false⟩ :: w)
/-- The value of the right-hand side offers the word. -/
inductive Given (P : Prog) (fo : Nat → List Nat) : Option Nat → Bool → Expr → List Lab → Prop
  | flat {r e} : Given P fo r false e []
  | solid {r lt e} : Solid P r e → Given P fo r lt e []
  | some {r lt e o} : Obj P o → Reaches P (.decl o) (.expr e) → Given P fo r lt e []
  | obj {r e o w} : Obj P o → Reaches P (.decl o) (.expr e) → Has P fo o w → Given P fo r true e w
/-- What is in the place is wanted along the word. -/
inductive Dem (P : Prog) (fo : Nat → List Nat) : Loc → List Lab → Prop
  | read {r y i f lt e w} : ReadAt P r y i f lt e → After P fo r lt e w → Dem P fo y (⟨f, false⟩ :: w)
  | write {r y i f lt a e w} : WriteAt P r y i f lt a e → Given P fo r lt e w → Dem P fo y (⟨f, true⟩ :: w)
/-- The object offers the word; `fo` are the fields of an object, the shared variables are fields of the module. -/
inductive Has (P : Prog) (fo : Nat → List Nat) : Nat → List Lab → Prop
  | field {o f init r} : At P (.value o true init) r → f ∈ fo o → Has P fo o [⟨f, false⟩]
  | write {o y r i f lt a e w} : Reaches P (.decl o) y → WriteAt P r y i f lt a e → Given P fo r lt e w →
      Has P fo o (⟨f, false⟩ :: w)
  | read {o y r i f lt e w} : Reaches P (.decl o) y → ReadAt P r y i f lt e → After P fo r lt e w →
      Has P fo o (⟨f, true⟩ :: w)
  | global {v k init r b} : At P (.value v k init) r → P.isShared v = true → Has P fo P.module [⟨v, b⟩]
  | globalObj {v k init r o w} : At P (.value v k init) r → P.isShared v = true → Obj P o →
      Reaches P (.decl o) (.decl v) → Has P fo o w → Has P fo P.module (⟨v, false⟩ :: w)
end

/-- Something that is done with the value of the declaration goes along the word; for the module, the initial value of a
shared variable counts as assigned. -/
inductive Wants (P : Prog) (fo : Nat → List Nat) : Nat → List Lab → Prop
  | place {x z w} : Reaches P (.decl x) z → Dem P fo z w → Wants P fo x w
  | global {v k init r} : At P (.value v k init) r → P.isShared v = true → Wants P fo P.module [⟨v, true⟩]
  | globalObj {v k init r o w} : At P (.value v k init) r → P.isShared v = true → Obj P o →
      Reaches P (.decl o) (.decl v) → Has P fo o w → Wants P fo P.module (⟨v, true⟩ :: w)

/-- An object can be in `x` that offers the word, and the word is wanted there. -/
def Fiber (P : Prog) (fo : Nat → List Nat) (x : Nat) (w : List Lab) : Prop :=
  Wants P fo x w ∧ ∃ o, Obj P o ∧ Reaches P (.decl o) (.decl x) ∧ Has P fo o w

/-- The object of an assigned field is named by a local variable or an attribute. -/
def PlainTargets (P : Prog) : Prop := ∀ a i lt f w e r, At P (.assign a (.fieldRef i lt f w) e) r →
  (∃ j l x, w = .use j l x ∧ OwnVar P r x) ∨ ∃ l b, w = .attrRef l b

/-- Fields are not variables. -/
structure Apart (P : Prog) : Prop where
  read : ∀ {r i lt f w r' j l}, ExprAt P r (.fieldRef i lt f w) → ¬ ExprAt P r' (.use j l f)
  write : ∀ {r a i lt f w e r' j l}, At P (.assign a (.fieldRef i lt f w) e) r → ¬ ExprAt P r' (.use j l f)
  value : ∀ {r i lt f w k init r'}, ExprAt P r (.fieldRef i lt f w) → ¬ At P (.value f k init) r'

/-- Everything that the program contains is in the list of the traversal. -/
structure Listed (P : Prog) (fo : Nat → List Nat) (items : List Item) : Prop where
  decls : ∀ {d}, (∃ o, Holds P d o) ∨ (∃ u, UsedBy P d u) → ∃ k, .decl d k ∈ items
  fields : ∀ {o f init r}, At P (.value o true init) r → f ∈ fo o → .decl f true ∈ items
  reads : ∀ {r y i f lt e}, ReadAt P r y i f lt e → .use i ∈ items ∧ .decl f true ∈ items
  writes : ∀ {r y i f lt a e}, WriteAt P r y i f lt a e → .use i ∈ items ∧ .decl f true ∈ items
  shared : ∀ {v k init r}, At P (.value v k init) r → P.isShared v = true → .decl v true ∈ items

/-- The object has the field: it is assigned through a place where the object is, or declared, or it is a shared variable and
the object is the module. -/
def Supplied (P : Prog) (fo : Nat → List Nat) (o f : Nat) : Prop :=
  (∃ r y i lt a e, Reaches P (.decl o) y ∧ WriteAt P r y i f lt a e) ∨ (∃ init r, At P (.value o true init) r ∧ f ∈ fo o) ∨
    (∃ k init r, o = P.module ∧ P.isShared f = true ∧ At P (.value f k init) r)

/-- The value of `x` gets to a place where the field is read, and an object that has the field can be in `x`. -/
def ReadThrough (P : Prog) (fo : Nat → List Nat) (x f : Nat) : Prop :=
  (∃ r z i lt e, Reaches P (.decl x) z ∧ ReadAt P r z i f lt e) ∧ ∃ o, Obj P o ∧ Reaches P (.decl o) (.decl x) ∧ Supplied P fo o f

/-- The value of `x` gets to a place where the field is assigned, and an object whose field is read can be in `x`. -/
def WrittenThrough (P : Prog) (x f : Nat) : Prop :=
  (∃ r z i lt a e, Reaches P (.decl x) z ∧ WriteAt P r z i f lt a e) ∧
    ∃ o r y i lt e, Obj P o ∧ Reaches P (.decl o) (.decl x) ∧ Reaches P (.decl o) y ∧ ReadAt P r y i f lt e

end Aps.Fsa.Spec

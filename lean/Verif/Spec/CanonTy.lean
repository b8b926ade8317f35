import Verif.Model.CanonTy
/-!
# What a type expression means

Specification for C85: types by path. `named [d, T, U]` is the type `d` of the module instance `T` that is itself a
type of the module instance `U` (innermost first); two types are the same iff their paths (or, for
function types, their parts) are. A context is the path of the module instance whose body is being read, `[]` for
the text as written. Modules are not nested in each other.
-/
namespace Aps.CanonTy
open Aps.CType

/-- Types. -/
inductive Sem
  | named (path : List Nat)
  | func (params : List Sem) (ret : Sem)

/-- The instance `T` is of module `m`, with this result, these formals and these actuals. -/
def InstanceOf (P : Prog) (T m r : Nat) (fs : List Nat) (as : List TExp) : Prop :=
  P.decl T = .type (.inst m as) ∧ ∃ g, P.decl m = .module_ g r fs

/-- The context for reading the definition of `d`, used in context `p`: `p` itself if `d` is declared in the module that `p`
is an instance of, otherwise the top level. -/
def home (P : Prog) (p : List Nat) (d : Nat) : List Nat :=
  match p with
  | [] => []
  | T :: q =>
    match P.decl T with
    | .type (.inst m _) => if m ∈ P.encl d then T :: q else []
    | _ => []

/-- The definition of an alias. -/
inductive Alias (P : Prog) (d : Nat) : TExp → Prop
  | use {e} : P.decl d = .type (.use e) → Alias P d (.use e)
  | qual {t e} : P.decl d = .type (.qual t e) → Alias P d (.qual t e)
  | func {ps r} : P.decl d = .type (.func ps r) → Alias P d (.func ps r)
  | renamed {t} : P.decl d = .renaming t → Alias P d t

/-- `d` names a type of its own: declared without a definition, or as an instance of a module. -/
def Own (P : Prog) (d : Nat) : Prop := P.decl d = .type .opq ∨ ∃ m as, P.decl d = .type (.inst m as)

/-- `d` is the result of the module that `p` is an instance of. -/
def ResultIn (P : Prog) (p : List Nat) (d : Nat) : Prop :=
  ∃ T q m r fs as, p = T :: q ∧ InstanceOf P T m r fs as ∧ d = r

mutual
/-- In context `p` the declaration `d` is the type `S`. -/
inductive DenD (P : Prog) : List Nat → Nat → Sem → Prop
  /-- the result of a module instance is the instance -/
  | result {p d} : ResultIn P (home P p d) d → DenD P p d (.named (home P p d))
  /-- a formal of an instance is the actual, read where the instance is declared -/
  | formal {p d T q m r fs as i a S b} : home P p d = T :: q → InstanceOf P T m r fs as → P.decl d = .formal b →
      fs[(i : Nat)]? = some d → as[i]? = some a → DenT P q a S → DenD P p d S
  /-- the formals of the module being read are types -/
  | free {p d b} : home P p d = [] → P.decl d = .formal b → DenD P p d (.named [d])
  | own {p d} : Own P d → ¬ ResultIn P (home P p d) d → DenD P p d (.named (d :: home P p d))
  | alias_ {p d t S} : Alias P d t → ¬ ResultIn P (home P p d) d → DenT P (home P p d) t S → DenD P p d S

/-- In context `p` the type expression is the type `S`. -/
inductive DenT (P : Prog) : List Nat → TExp → Sem → Prop
  | use {p d S} : DenD P p d S → DenT P p (.use d) S
  /-- `t$d`: `d` is read in the instance that `t` is, whose module must declare it -/
  | qual {p t d T q m r fs as S} : DenT P p t (.named (T :: q)) → InstanceOf P T m r fs as → m ∈ P.encl d →
      DenD P (T :: q) d S → DenT P p (.qual t d) S
  | remote {p t S} : DenT P p t S → DenT P p (.remote t) S
  | func {p ps r Ss S} : DenT P p r S → ps.length = Ss.length →
      (∀ (i : Nat) t s, ps[i]? = some t → Ss[i]? = some s → DenT P p t s) → DenT P p (.func ps r) (.func Ss S)
end

mutual
/-- A canonical type as a type expression. -/
def toExp : Ty → TExp
  | .use d => .use d
  | .qual s d => .qual (toExp s) d
  | .func ps r => .func (toExps ps) (toExp r)
/-- The same for a list. -/
def toExps : List Ty → List TExp
  | [] => []
  | t :: ts => toExp t :: toExps ts
end

mutual
/-- `d` is defined without qualified names (and, if `res` is false, not as the result of a module). -/
inductive Unqual (P : Prog) (res : Bool) : Nat → Prop
  | own {d} : Own P d → (isSomeResultDecl P d = true → res = true) → Unqual P res d
  | formal {d b} : P.decl d = .formal b → Unqual P res d
  | result {d e} : P.decl d = .type (.use e) → isSomeResultDecl P e = true → res = true → Unqual P res d
  | use {d e} : Alias P d (.use e) → isSomeResultDecl P e = false → Unqual P res e → Unqual P res d
  | func {d ps r} : Alias P d (.func ps r) → UnqualT P res (.func ps r) → Unqual P res d
/-- The expression has no qualified names, also in the definitions it uses. -/
inductive UnqualT (P : Prog) (res : Bool) : TExp → Prop
  | use {d} : (isSomeResultDecl P d = true → Own P d) → Unqual P res d → UnqualT P res (.use d)
  | func {ps r} : (∀ t ∈ ps, UnqualT P res t) → UnqualT P res r → UnqualT P res (.func ps r)
end

/-- `T` is declared as an instance, and is not the result of its module. -/
def PlainInst (P : Prog) (T : Nat) : Prop :=
  (∃ m r fs as, InstanceOf P T m r fs as) ∧ isSomeResultDecl P T = false

/-- Type expressions that mention the result of a module only if it is a type of its own, in which what comes before a `$` is one declared instance `T`, or `T$U` with two; and what
comes after is defined without qualified names. With two `$`, it must also not lead to the result of the module, and the
actuals of `U` must be without qualified names. -/
inductive Flat (P : Prog) : TExp → Prop
  | opq : Flat P .opq
  | inst {m as} : Flat P (.inst m as)
  | use {d} : (isSomeResultDecl P d = true → Own P d) → Flat P (.use d)
  | remote {t} : Flat P t → Flat P (.remote t)
  | func {ps r} : (∀ t ∈ ps, Flat P t) → Flat P r → Flat P (.func ps r)
  | qual {T d} : PlainInst P T → isSomeResultDecl P d = false → Unqual P true d → Flat P (.qual (.use T) d)
  | qual2 {T U d} : PlainInst P T → PlainInst P U → isSomeResultDecl P d = false → Unqual P false d →
      (∀ m as, P.decl U = .type (.inst m as) → ∀ a ∈ as, UnqualT P true a) →
      Flat P (.qual (.qual (.use T) U) d)

/-- The unqualified names in the expression are declared at top level or in the modules `es`. -/
inductive Scoped (P : Prog) (es : List Nat) : TExp → Prop
  | opq : Scoped P es .opq
  | inst {m as} : Scoped P es (.inst m as)
  | use {d} : P.encl d = [] ∨ P.encl d = es → Scoped P es (.use d)
  | qual {t d} : Scoped P es t → Scoped P es (.qual t d)
  | remote {t} : Scoped P es t → Scoped P es (.remote t)
  | func {ps r} : (∀ t ∈ ps, Scoped P es t) → Scoped P es r → Scoped P es (.func ps r)

/-- Programs as the earlier passes leave them: modules are not nested; a module's result is a type declared in it and its
formals are different from each other; definitions and actuals use names that are visible. -/
structure WellFormed (P : Prog) : Prop where
  unnested : ∀ d, (P.encl d).length ≤ 1
  result : ∀ m g r fs, P.decl m = .module_ g r fs → P.encl r = [m] ∧ ∃ t, P.decl r = .type t
  formals : ∀ m g r fs, P.decl m = .module_ g r fs → fs.Nodup
  aliases : ∀ d t, Alias P d t → Scoped P (P.encl d) t
  actuals : ∀ T m as, P.decl T = .type (.inst m as) → ∀ a ∈ as, Scoped P (P.encl T) a

/-- All definitions and actuals of the program are `Flat`, or `type D := Result`. -/
structure FlatProg (P : Prog) : Prop where
  aliases : ∀ d t, Alias P d t → Flat P t ∨ ∃ e, P.decl d = .type (.use e) ∧ isSomeResultDecl P e = true
  actuals : ∀ T m as, P.decl T = .type (.inst m as) → ∀ a ∈ as, Flat P a

end Aps.CanonTy

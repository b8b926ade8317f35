import Verif.Model.TypeCheck
/-!
# What it is for a program to be well typed

`Γ` gives the types of the variables of patterns and loops that are declared without one.
-/
namespace Aps.TyCk

/-- what an environment has for a type parameter -/
def look (P : Prog) (env : Env) (d : Nat) : Option Ty :=
  match P.type d with
  | .formal p i _ =>
    match contour env p with
    | some c => c.inferred[i]?.join
    | none => none
  | _ => none

section
variable (P : Prog)

mutual
/-- Two types are the same: names of types stand for the types, `remote T` is `T`, and functions are compared formal by formal.
Nothing else. -/
inductive Same : Ty → Ty → Prop
  | refl (t : Ty) : Same t t
  | symm {t s : Ty} : Same t s → Same s t
  | trans {t s r : Ty} : Same t s → Same s r → Same t r
  | alias {d : Nat} {t : Ty} : P.type d = .alias t → Same (.use d) t
  | remote (t : Ty) : Same (.remote t) t
  | func {fs gs : Tys} {r s : Ty} : Sames fs gs → Same r s → Same (.func fs r) (.func gs s)

/-- formals are the same -/
inductive Sames : Tys → Tys → Prop
  | nil : Sames .nil .nil
  | seq {t s : Ty} : Same t s → Sames (.seq t) (.seq s)
  | cons {t s : Ty} {fs gs : Tys} : Same t s → Sames fs gs → Sames (.cons t fs) (.cons s gs)
end

/-- The elements of a type: the first actual of the instance it is, or of a signature it is declared with. -/
inductive Elem : Ty → Ty → Prop
  | inst {d : Nat} {e : Ty} : P.type d = .nominal (some e) → Elem (.use d) e
  | sig {d p i : Nat} {es : List Ty} {e : Ty} : P.type d = .formal p i es → e ∈ es → Elem (.use d) e
  | alias {d : Nat} {t e : Ty} : P.type d = .alias t → Elem t e → Elem (.use d) e
  | remote {t e : Ty} : Elem t e → Elem (.remote t) e

/-- `d` is a type parameter of one of the declarations `polys`. -/
def Param (polys : List Nat) (d : Nat) : Prop := ∃ (p i : Nat) (es : List Ty), P.type d = .formal p i es ∧ p ∈ polys

mutual
/-- The type parameters of `polys` replaced as `σ` says; only those that `σ` has something for can be replaced. -/
inductive Replace (polys : List Nat) (σ : Nat → Option Ty) : Ty → Ty → Prop
  | param {d : Nat} {t : Ty} : Param P polys d → σ d = some t → Replace polys σ (.use d) t
  | use {d : Nat} : ¬ Param P polys d → Replace polys σ (.use d) (.use d)
  | remote {t t' : Ty} : Replace polys σ t t' → Replace polys σ (.remote t) (.remote t')
  | func {fs fs' : Tys} {r r' : Ty} : Replaces polys σ fs fs' → Replace polys σ r r' →
      Replace polys σ (.func fs r) (.func fs' r')
  | other (n : Nat) : Replace polys σ (.other n) (.other n)

/-- the same in formals -/
inductive Replaces (polys : List Nat) (σ : Nat → Option Ty) : Tys → Tys → Prop
  | nil : Replaces polys σ .nil .nil
  | seq {t t' : Ty} : Replace polys σ t t' → Replaces polys σ (.seq t) (.seq t')
  | cons {t t' : Ty} {fs fs' : Tys} : Replace polys σ t t' → Replaces polys σ fs fs' →
      Replaces polys σ (.cons t fs) (.cons t' fs')
end

/-- What replaces a type parameter has the elements its signatures ask for. -/
def Legal (polys : List Nat) (σ : Nat → Option Ty) : Prop :=
  ∀ (d p i : Nat) (es : List Ty) (t : Ty), P.type d = .formal p i es → p ∈ polys → σ d = some t →
    ∀ e ∈ es, ∃ el e' : Ty, Elem P t el ∧ Replace P polys σ e e' ∧ Same P el e'

/-- The type a use is declared with, and the polymorphic declarations around what it is bound to. A variable without a type
has the type `Γ` gives. -/
inductive Declared (Γ : Nat → Option Ty) (u : Nat) : Ty → List Nat → Prop
  | value {t : Ty} {polys : List Nat} : P.bound u = .value t polys → Declared Γ u t polys
  | formal {x : Nat} {t : Ty} : P.bound u = .formal x (some t) → Declared Γ u t []
  | var {x : Nat} {t : Ty} : P.bound u = .formal x none → Γ x = some t → Declared Γ u t []

mutual
/-- Expression `e` has type `t`. -/
inductive HasTy (Γ : Nat → Option Ty) : Ex → Ty → Prop
  | use {u : Nat} {t t' : Ty} {polys : List Nat} {σ : Nat → Option Ty} : Declared P Γ u t polys → Legal P polys σ →
      Replace P polys σ t t' → HasTy Γ (.use u) t'
  | lit (k : Nat) : HasTy Γ (.lit k) (P.lit k)
  | typed {e : Ex} {t : Ty} : HasTy Γ e t → HasTy Γ (.typed e t) t
  | call {u : Nat} {t r r' : Ty} {fs : Tys} {as : Exs} {polys : List Nat} {σ : Nat → Option Ty} : Declared P Γ u t polys →
      Legal P polys σ → Same P t (.func fs r) → ArgsTy Γ polys σ as fs → Replace P polys σ r r' → HasTy Γ (.call u as) r'
  | callT {e : Ex} {t r : Ty} {fs : Tys} {as : Exs} : HasTy Γ e t → Same P t (.func fs r) →
      ArgsTy Γ [] (fun _ => none) as fs → HasTy Γ (.callT e t as) r
  | callE {e : Ex} {t r : Ty} {fs : Tys} {as : Exs} : HasTy Γ e t → Same P t (.func fs r) →
      ArgsTy Γ [] (fun _ => none) as fs → HasTy Γ (.callE e as) r
  | append {a b : Ex} {t : Ty} : HasTy Γ a t → HasTy Γ b t → HasTy Γ (.append a b) t
  | rep {e : Ex} {t el : Ty} : HasTy Γ e t → Elem P t el → HasTy Γ (.rep e) el
  | guarded {e c : Ex} {t : Ty} : HasTy Γ e t → HasTy Γ c P.bool → HasTy Γ (.guarded e c) t
  | controlled {e set : Ex} {x : Nat} {xt : Option Ty} {t ts el : Ty} : HasTy Γ set ts → Elem P ts el →
      (∀ s : Ty, xt = some s → Same P s el) → (∀ s : Ty, xt = none → Γ x = some s → Elem P ts s) → HasTy Γ e t →
      HasTy Γ (.controlled e x xt set) t
  | empty (t : Ty) : HasTy Γ .empty t
  | same {e : Ex} {t s : Ty} : HasTy Γ e t → Same P t s → HasTy Γ e s

/-- The actuals have the types of the formals; the last formal may stand for any number. -/
inductive ArgsTy (Γ : Nat → Option Ty) : List Nat → (Nat → Option Ty) → Exs → Tys → Prop
  | nil {polys : List Nat} {σ : Nat → Option Ty} : ArgsTy Γ polys σ .nil .nil
  | none {polys : List Nat} {σ : Nat → Option Ty} (t : Ty) : ArgsTy Γ polys σ .nil (.seq t)
  | seq {polys : List Nat} {σ : Nat → Option Ty} {e : Ex} {as : Exs} {t t' : Ty} :
      Replace P polys σ t t' → HasTy Γ e t' → ArgsTy Γ polys σ as (.seq t) →
      ArgsTy Γ polys σ (.cons e as) (.seq t)
  | cons {polys : List Nat} {σ : Nat → Option Ty} {e : Ex} {as : Exs} {t t' : Ty} {fs : Tys} :
      Replace P polys σ t t' → HasTy Γ e t' → ArgsTy Γ polys σ as fs →
      ArgsTy Γ polys σ (.cons e as) (.cons t fs)
end

mutual
/-- Pattern `p` is one for values of type `t`. -/
inductive PatTy (Γ : Nat → Option Ty) : Pat → Ty → Prop
  | use {u : Nat} {t t' : Ty} {polys : List Nat} {σ : Nat → Option Ty} : Declared P Γ u t polys → Legal P polys σ →
      Replace P polys σ t t' → PatTy Γ (.use u) t'
  | typed {p : Pat} {t : Ty} : PatTy Γ p t → PatTy Γ (.typed p t) t
  | call {u : Nat} {t r r' : Ty} {fs : Tys} {as : Pats} {polys : List Nat} {σ : Nat → Option Ty} : Declared P Γ u t polys →
      Legal P polys σ → Same P t (.func fs r) → ArgsPat Γ polys σ as fs → Replace P polys σ r r' → PatTy Γ (.call u as) r'
  | callE {p : Pat} {t r : Ty} {fs : Tys} {as : Pats} : PatTy Γ p t → Same P t (.func fs r) →
      ArgsPat Γ [] (fun _ => none) as fs → PatTy Γ (.callE p as) r
  | rest {p : Pat} {t : Ty} : PatTy Γ p t → PatTy Γ (.rest p) t
  | and {p q : Pat} {t : Ty} : PatTy Γ p t → PatTy Γ q t → PatTy Γ (.and p q) t
  | var {x : Nat} {t : Ty} : Γ x = some t → PatTy Γ (.var x none) t
  | tvar (x : Nat) (t : Ty) : PatTy Γ (.var x (some t)) t
  | cond {e : Ex} (t : Ty) : HasTy P Γ e P.bool → PatTy Γ (.cond e) t
  | none (t : Ty) : PatTy Γ .none t
  | same {p : Pat} {t s : Ty} : PatTy Γ p t → Same P t s → PatTy Γ p s

/-- the actuals of a pattern -/
inductive ArgsPat (Γ : Nat → Option Ty) : List Nat → (Nat → Option Ty) → Pats → Tys → Prop
  | nil {polys : List Nat} {σ : Nat → Option Ty} : ArgsPat Γ polys σ .nil .nil
  | none {polys : List Nat} {σ : Nat → Option Ty} (t : Ty) : ArgsPat Γ polys σ .nil (.seq t)
  | seq {polys : List Nat} {σ : Nat → Option Ty} {p : Pat} {as : Pats} {t t' : Ty} :
      Replace P polys σ t t' → PatTy Γ p t' → ArgsPat Γ polys σ as (.seq t) →
      ArgsPat Γ polys σ (.cons p as) (.seq t)
  | cons {polys : List Nat} {σ : Nat → Option Ty} {p : Pat} {as : Pats} {t t' : Ty} {fs : Tys} :
      Replace P polys σ t t' → PatTy Γ p t' → ArgsPat Γ polys σ as fs →
      ArgsPat Γ polys σ (.cons p as) (.cons t fs)
end

/-- the default of a declaration of type `t` -/
inductive DfltTy (Γ : Nat → Option Ty) (t : Ty) : Dflt → Prop
  | none : DfltTy Γ t .none
  | simple {e : Ex} : HasTy P Γ e t → DfltTy Γ t (.simple e)
  | composite {i c : Ex} : HasTy P Γ i t → HasTy P Γ c (.func (.cons t (.cons t .nil)) t) → DfltTy Γ t (.composite i c)

mutual
/-- A statement is well typed. -/
inductive StmtTy (Γ : Nat → Option Ty) : Stmt → Prop
  | value {t : Ty} {d : Dflt} : DfltTy P Γ t d → StmtTy Γ (.value t d)
  | assign {lhs rhs : Ex} {t : Ty} : HasTy P Γ lhs t → HasTy P Γ rhs t → StmtTy Γ (.assign lhs rhs)
  | ifs {c : Ex} {t f : Blk} : HasTy P Γ c P.bool → BlkTy Γ t → BlkTy Γ f → StmtTy Γ (.ifs c t f)
  | cases {e : Ex} {t : Ty} {ms : Mats} {d : Blk} : HasTy P Γ e t → MatsTy Γ t ms → BlkTy Γ d → StmtTy Γ (.cases e ms d)
  | fors {e : Ex} {t : Ty} {ms : Mats} : HasTy P Γ e t → MatsTy Γ t ms → StmtTy Γ (.fors e ms)
  | forIn {x : Nat} {xt : Option Ty} {e : Ex} {t : Ty} {body : Blk} : HasTy P Γ e t →
      (∀ s : Ty, xt = some s → ∃ el : Ty, Elem P t el ∧ Same P s el) →
      (∀ s : Ty, xt = none → Γ x = some s → Elem P t s) → BlkTy Γ body → StmtTy Γ (.forIn x xt e body)
  | top {p : Pat} {t : Ty} {body : Blk} : PatTy P Γ p t → BlkTy Γ body → StmtTy Γ (.top p body)

/-- a block -/
inductive BlkTy (Γ : Nat → Option Ty) : Blk → Prop
  | nil : BlkTy Γ .nil
  | cons {s : Stmt} {rest : Blk} : StmtTy Γ s → BlkTy Γ rest → BlkTy Γ (.cons s rest)

/-- matches of values of type `t` -/
inductive MatsTy (Γ : Nat → Option Ty) : Ty → Mats → Prop
  | nil (t : Ty) : MatsTy Γ t .nil
  | cons {t : Ty} {p : Pat} {body : Blk} {rest : Mats} :
      PatTy P Γ p t → BlkTy Γ body → MatsTy Γ t rest → MatsTy Γ t (.cons p body rest)
end

/-! Where the checker looks at the types that are written: not at those of the variables of loops, nor at those in patterns whose
type it has to find. -/

/-- `u` is bound to something without type parameters. -/
def Mono (u : Nat) : Prop := ∀ (t : Ty) (polys : List Nat), P.bound u = .value t polys → polys = []

mutual
/-- no types are written for the variables of loops -/
def Ex.Plain : Ex → Prop
  | .use _ => True
  | .lit _ => True
  | .typed e _ => e.Plain
  | .call _ as => as.Plain
  | .callT e _ as => e.Plain ∧ as.Plain
  | .callE e as => e.Plain ∧ as.Plain
  | .append a b => a.Plain ∧ b.Plain
  | .rep e => e.Plain
  | .guarded e c => e.Plain ∧ c.Plain
  | .controlled e _ xt set => xt = none ∧ e.Plain ∧ set.Plain
  | .empty => True
def Exs.Plain : Exs → Prop
  | .nil => True
  | .cons e as => e.Plain ∧ as.Plain
end

mutual
/-- A pattern whose type is found (`find`), or checked: types are not written where they are not looked at. (The type of a pattern
call is found only if its function is monomorphic; otherwise aps-type.c:1354 asks for the type parameters before anything is known
of them.) -/
def Pat.Plain : Bool → Pat → Prop
  | _, .use _ => True
  | find, .typed p _ => find = true ∧ p.Plain false
  | find, .call u as => as.Plain false ∧ (Mono P u ∨ find = false ∧ as.Plain true)
  | _, .callE f as => f.Plain true ∧ as.Plain false
  | find, .rest p => p.Plain find
  | find, .and p q => p.Plain false ∧ q.Plain find
  | find, .var _ t => find = true → t = none
  | _, .cond e => e.Plain
  | _, .none => True
def Pats.Plain : Bool → Pats → Prop
  | _, .nil => True
  | find, .cons p as => p.Plain find ∧ as.Plain find
end

/-- the same of a default -/
def Dflt.Plain : Dflt → Prop
  | .none => True
  | .simple e => e.Plain
  | .composite i c => i.Plain ∧ c.Plain

mutual
/-- the same of statements -/
def Stmt.Plain : Stmt → Prop
  | .value _ d => d.Plain
  | .assign lhs rhs => lhs.Plain ∧ rhs.Plain
  | .ifs c t f => c.Plain ∧ t.Plain ∧ f.Plain
  | .cases e ms d => e.Plain ∧ ms.Plain ∧ d.Plain
  | .fors e ms => e.Plain ∧ ms.Plain
  | .forIn _ xt e body => xt = none ∧ e.Plain ∧ body.Plain
  | .top p body => p.Plain P true ∧ body.Plain
def Blk.Plain : Blk → Prop
  | .nil => True
  | .cons s rest => s.Plain ∧ rest.Plain
def Mats.Plain : Mats → Prop
  | .nil => True
  | .cons p body rest => p.Plain P false ∧ body.Plain ∧ rest.Plain
end

/-- A polymorphic declaration's parameters are told apart by their positions. -/
def Prog.Params : Prop :=
  ∀ (d d' p i : Nat) (es es' : List Ty), P.type d = .formal p i es → P.type d' = .formal p i es' → d = d'

mutual
/-- the types named in a type -/
def Ty.names : Ty → List Nat
  | .use d => [d]
  | .remote t => t.names
  | .func fs r => fs.names ++ r.names
  | .other _ => []
def Tys.names : Tys → List Nat
  | .nil => []
  | .seq t => t.names
  | .cons t fs => t.names ++ fs.names
end

/-- No type is a name for something made from itself. -/
def Prog.Acyclic : Prop :=
  ∃ rank : Nat → Nat, ∀ (d : Nat) (t : Ty), P.type d = .alias t → ∀ e ∈ t.names, rank e < rank d

mutual
/-- An expression without polymorphism and loops, in which the empty sequence is not used where its type would have to be found
(`find`). -/
def Ex.Ground : Bool → Ex → Prop
  | _, .use u => Mono P u
  | _, .lit _ => True
  | _, .typed e _ => e.Ground false
  | _, .call u as => Mono P u ∧ as.Ground
  | _, .callT e _ as => e.Ground false ∧ as.Ground
  | _, .callE e as => e.Ground true ∧ as.Ground
  | find, .append a b => a.Ground find ∧ b.Ground false
  | _, .rep e => e.Ground true
  | find, .guarded e c => e.Ground find ∧ c.Ground false
  | _, .controlled _ _ _ _ => False
  | find, .empty => find = false
def Exs.Ground : Exs → Prop
  | .nil => True
  | .cons e as => e.Ground false ∧ as.Ground
end

/-- The checker has the types of the variables. -/
def Knows (st : St) (Γ : Nat → Option Ty) : Prop :=
  ∀ (x : Nat) (t : Ty), Γ x = some t →
    (∃ s : Ty, st.vars x = some (.pat s) ∧ Same P s t) ∨ (∃ s : Ty, st.vars x = some (.seq s) ∧ Elem P s t)

/-- A type parameter has at most one signature. -/
def Prog.OneSig : Prop := ∀ (d p i : Nat) (es : List Ty), P.type d = .formal p i es → es.length ≤ 1

end
end Aps.TyCk

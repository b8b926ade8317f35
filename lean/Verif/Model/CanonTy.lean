import Verif.Proofs.CTypeTerm
/-!
# analyze/canonical-type.c: the canonical type of a type expression, joins and base types

Simplifications.
* Canonical types are terms (`Ty`); C29 shows that the addresses of hash-consed types are equal iff the terms are.
* A declaration is a number; `decl` says what it is and `encl` which `module_decl`s its node is inside of,
  innermost first (what the walks up `tnode_parent` find). Type and phylum declarations are not told apart.
* Where the C code reports an error and returns `NULL` the model stops.
* The recursion (through declarations, which may be circular) gets fuel.
-/
namespace Aps.CanonTy
open Aps.CType

/-- Type expressions (aps-tree: `Type`), with uses bound to their declarations. -/
inductive TExp
  /-- `no_type` or `private_type` -/
  | opq
  /-- `type_inst` of a module with type actuals -/
  | inst (m : Nat) (actuals : List TExp)
  /-- `type_use` of a `use` -/
  | use (d : Nat)
  /-- `type_use` of a `qual_use` -/
  | qual («from» : TExp) (d : Nat)
  | func (params : List TExp) (ret : TExp)
  | remote (t : TExp)

/-- What a declaration is. -/
inductive Info
  /-- `type_decl`, `phylum_decl` -/
  | type (t : TExp)
  /-- `type_formal` (`false`), `phylum_formal` (`true`) -/
  | formal (phylum : Bool)
  /-- `type_renaming` (of its old type), `type_replacement` (of its `as`) -/
  | renaming (t : TExp)
  /-- `module_decl`: generating?, the result declaration, the type formals -/
  | module_ (generating : Bool) (result : Nat) (formals : List Nat)
  | other

/-- A program. -/
structure Prog where
  decl : Nat → Info
  encl : Nat → List Nat

variable (P : Prog)

/-- analyze/canonical-type.c:240-252 -/
def isInsideModule (m d : Nat) : Bool := (P.encl d).contains m

/-- analyze/canonical-type.c:314-337 — only the innermost enclosing module is asked. -/
def isSomeResultDecl (d : Nat) : Bool :=
  match P.encl d with
  | [] => false
  | m :: _ =>
    match P.decl m with
    | .module_ _ r _ => r == d
    | _ => false

/-- analyze/canonical-type.c:398-416. The actual list ending early: `canonical_type(NULL)` reports an error,
`TYPE_NEXT(NULL)` is undefined. -/
def getActualGivenFormal (d : Nat) : List Nat → List TExp → Res TExp
  | [], _ => .stop
  | f :: _, [] => if d = f then .stop else .ub
  | f :: fs, a :: as => if d = f then .ok a else getActualGivenFormal d fs as

/-- analyze/canonical-type.c:644-662 -/
def leftRefactor (left : Ty) : Ty → Res Ty
  | .use d => .ok (.qual left d)
  | .qual s d => do
    let s ← leftRefactor left s
    return .qual s d
  | .func .. => .stop

/-- the module, its generating flag, result and formals, and the actuals of the instance declared by `T`
(analyze/canonical-type.c:722-733, 793-804, 885-896: everything else is a fatal error) -/
def instance? (T : Nat) : Option (Nat × Bool × Nat × List Nat × List TExp) :=
  match P.decl T with
  | .type (.inst m as) =>
    match P.decl m with
    | .module_ g r fs => some (m, g, r, fs, as)
    | _ => none
  | _ => none

mutual
/-- analyze/canonical-type.c:486-520 -/
def canon : Nat → TExp → Res Ty
  | 0, _ => .nofuel
  | n + 1, .remote t => canon n t
  | _ + 1, .inst .. => .stop
  | n + 1, .use d => canonUse n d
  | n + 1, .qual t d => do
    -- 424-430
    let o ← canon n t
    let i ← canonUse n d
    join n o i false
  | n + 1, .func ps r => do
    let r ← canon n r
    let ps ← canonAll n ps
    return .func ps r
  | _ + 1, .opq => .stop

/-- analyze/canonical-type.c:454-474 -/
def canonAll : Nat → List TExp → Res (List Ty)
  | 0, _ => .nofuel
  | _ + 1, [] => .ok []
  | n + 1, t :: ts => do
    let a ← canon n t
    let as ← canonAll n ts
    return a :: as

/-- analyze/canonical-type.c:344-388 -/
def canonUse : Nat → Nat → Res Ty
  | 0, _ => .nofuel
  | n + 1, d =>
    match P.decl d with
    | .type .opq | .type (.inst ..) => .ok (.use d)
    | .type (.use e) => if isSomeResultDecl P e then .ok (.use e) else canon n (.use e)
    | .type (.qual t e) => if isSomeResultDecl P e then .ok (.use e) else canon n (.qual t e)
    | .type (.func ps r) => canon n (.func ps r)
    | .type (.remote _) => .stop
    | .renaming t => canon n t
    | .formal false => .ok (.use d)
    | .formal true => .stop
    | _ => .stop

/-- analyze/canonical-type.c:971-1000 -/
def join : Nat → Ty → Ty → Bool → Res Ty
  | 0, _, _, _ => .nofuel
  | n + 1, .use t, .use d, b => useUseJoin n t d b
  | n + 1, .use t, .func ps r, b => do
    let r ← join n (.use t) r b
    let ps ← joinAll n (.use t) ps b
    return .func ps r
  | _ + 1, .use t, .qual s d, _ => leftRefactor (.use t) (.qual s d)
  | n + 1, .qual s t, .use d, b => qualUseJoin n s t d b
  | n + 1, .qual s t, .qual si d, b => qualQualJoin n s t si d b
  | n + 1, .qual s t, .func ps r, b => do
    let r ← join n (.qual s t) r b
    let ps ← joinAll n (.qual s t) ps b
    return .func ps r
  | _ + 1, .func .., _, _ => .stop

/-- analyze/canonical-type.c:680-684 -/
def joinAll : Nat → Ty → List Ty → Bool → Res (List Ty)
  | 0, _, _, _ => .nofuel
  | _ + 1, _, [], _ => .ok []
  | n + 1, o, t :: ts, b => do
    let a ← join n o t b
    let as ← joinAll n o ts b
    return a :: as

/-- analyze/canonical-type.c:711-777 -/
def useUseJoin : Nat → Nat → Nat → Bool → Res Ty
  | 0, _, _, _ => .nofuel
  | n + 1, t, d, b =>
    match instance? P t with
    | none => .stop
    | some (m, g, r, fs, as) =>
      if !isInsideModule P m d then .ok (.use d)
      else if !b && r == d then .ok (.use t)
      else if g && d == r then .ok (.use t)
      else
        match P.decl d with
        | .formal _ => do
          let a ← getActualGivenFormal d fs as
          canon n a
        | .type .opq | .type (.inst ..) => .ok (.qual (.use t) d)
        | .type (.use e) => do
          let i ← canon n (.use e)
          join n (.use t) i b
        | .type (.qual x e) => do
          let i ← canon n (.qual x e)
          join n (.use t) i b
        | _ => .stop

/-- analyze/canonical-type.c:785-868 -/
def qualUseJoin : Nat → Ty → Nat → Nat → Bool → Res Ty
  | 0, _, _, _, _ => .nofuel
  | n + 1, s, t, d, b =>
    match instance? P t with
    | none => .stop
    | some (m, g, r, fs, as) =>
      if !isInsideModule P m d then .ok (.use d)
      else if !b && r == d then .ok (.use t)
      else if g && d == r then .ok (.qual s t)
      else
        match P.decl d with
        | .formal _ => do
          let a ← getActualGivenFormal d fs as
          let i ← canon n a
          join n s i b
        | .type .opq => .ok (.qual (.qual s t) d)
        | .type (.inst ..) =>
          match instance? P d with
          | none => .stop
          | some (_, true, _, _, _) => do
            let first ← join n (.use t) (.use d) b
            join n s first b
          | some (_, false, r', _, _) => do
            let first ← join n (.use d) (.use r') b
            let second ← join n (.use t) first b
            join n s second b
        | .type (.use e) => do
          let i ← canon n (.use e)
          join n (.qual s t) i b
        | .type (.qual x e) => do
          let i ← canon n (.qual x e)
          join n (.qual s t) i b
        | _ => .stop

/-- analyze/canonical-type.c:876-962 -/
def qualQualJoin : Nat → Ty → Nat → Ty → Nat → Bool → Res Ty
  | 0, _, _, _, _, _ => .nofuel
  | n + 1, s, t, si, d, b =>
    match instance? P t with
    | none => .stop
    | some (m, g, r, fs, as) =>
      if !isInsideModule P m d then .ok (.use d)
      else if !b && r == d then .ok (.use t)
      else if g && d == r then .ok (.qual s t)
      else
        match P.decl d with
        | .formal _ => do
          let a ← getActualGivenFormal d fs as
          let i ← canon n a
          join n s i b
        | .type .opq => leftRefactor (.qual s t) (.qual si d)
        | .type (.inst ..) =>
          match instance? P d with
          | none => .stop
          | some (_, true, _, _, _) => do
            let first ← join n (.use t) (.use d) b
            join n s first b
          | some (_, false, r', _, _) => do
            let first ← join n (.use d) (.use r') b
            let second ← join n si first b
            let third ← join n (.use t) second b
            join n s third b
        | .type (.use e) => do
          let i ← canon n (.use e)
          join n (.qual s t) i b
        | .type (.qual x e) => do
          let i ← canon n (.qual x e)
          join n (.qual s t) i b
        | _ => .stop
end

mutual
/-- analyze/canonical-type.c:528-635. A `qual` of a function type falls into the function case, which reads a
different structure. -/
def baseType : Nat → Ty → Res Ty
  | 0, _ => .nofuel
  | n + 1, .use d =>
    match P.decl d with
    | .formal _ => .ok (.use d)
    | .type .opq => .ok (.use d)
    | .type (.use e) => do
      let c ← canon P n (.use e)
      baseType n c
    | .type (.qual x e) => do
      let c ← canon P n (.qual x e)
      baseType n c
    | .type (.inst ..) =>
      match instance? P d with
      | none => .stop
      | some (_, true, _, _, _) => .ok (.use d)
      | some (_, false, r, _, _) => do
        let c ← baseType n (.use r)
        join P n (.use d) c true
    | _ => .stop
  | n + 1, .qual s d =>
    match P.decl d with
    | .formal _ => .ok (.qual s d)
    | .type .opq => .ok (.qual s d)
    | .type (.use e) => do
      let c ← canon P n (.use e)
      baseType n c
    | .type (.qual x e) => do
      let c ← canon P n (.qual x e)
      baseType n c
    | .type (.inst ..) =>
      match instance? P d with
      | none => .stop
      | some (_, true, _, _, _) => .ok (.qual s d)
      | some (_, false, r, _, _) => do
        let c ← baseType n (.use r)
        let j ← join P n (.use d) c true
        join P n s j true
    | _ => .ub
  | n + 1, .func ps r => do
    let r ← baseType n r
    let ps ← baseAll n ps
    return .func ps r

/-- analyze/canonical-type.c:622-626 -/
def baseAll : Nat → List Ty → Res (List Ty)
  | 0, _ => .nofuel
  | _ + 1, [] => .ok []
  | n + 1, t :: ts => do
    let a ← baseType n t
    let as ← baseAll n ts
    return a :: as
end

end Aps.CanonTy

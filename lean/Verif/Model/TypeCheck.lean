import Verif.Model.Base
/-!
# analyze/aps-type.c: the type checker

Types, equality of types, inference of the type parameters of polymorphic declarations, and the check of expressions,
patterns and statements.

Simplifications.
* The first error stops the model (`.stop`); the code reports it and goes on. Use of a null pointer is `.ub`.
* Modules and qualified uses are left out: a use of a type is its declaration; the environment of a use is a chain of
  polymorphic contours. (A type parameter of a module can still be the type of something: it is a formal whose parent is in no
  environment.) Value and pattern renamings are left out, and so is the check that constant functions use no variables
  (`ensure_non_var_use`).
* Functions have one result. A sequence formal is the last (parse/aps.y:961-968).
* What is remembered in `Expression_info(e)->expr_type` and `Pattern_info(p)->pat_type` is only kept where it is looked up
  again: for the variables. Every expression and pattern is visited once, except the first actual of an assigned
  attribute (aps-type.c:171-184, left out).
* The three kinds of functions called (aps-type.c:1018-1133: a value use, a typed value, anything else) are three constructors.
* `type_inst`, `private_type` and `no_type` are nodes that are equal only to themselves (`other`). A type declaration with
  one of them as its type is `nominal` (for instances: of a generating module), with any other type `alias`.
* `t1 == t2` as a quick way to find types equal is left out (aps-type.c:2171, 2259): without it the same types are found equal.
-/
namespace Aps.TyCk

mutual
/-- A type (parse/aps.grammar `Type`). -/
inductive Ty
  | use (d : Nat)
  | remote (t : Ty)
  | func (fs : Tys) (r : Ty)
  | other (n : Nat)

/-- formals of a function type -/
inductive Tys
  | nil
  | seq (t : Ty)
  | cons (t : Ty) (rest : Tys)
end

/-- What a type declaration is. `elem`: the first type actual of an instance (aps-type.c:918-932). A formal: the contour it
belongs to, its index there (aps-bind.c:71-79), and the first type actuals of its signatures. -/
inductive TDecl
  | nominal (elem : Option Ty)
  | alias (t : Ty)
  | formal (parent ix : Nat) (elems : List Ty)

/-- What a value or pattern is: something with a type, declared in polymorphic contours (inmost first), or a formal (also: a
variable of a pattern or a loop), perhaps without a type of its own. -/
inductive VDecl
  | value (t : Ty) (polys : List Nat)
  | formal (x : Nat) (t : Option Ty)

/-- The declarations: types, numbers of formals of polymorphic contours, what uses are bound to, the types of constants. -/
structure Prog where
  type : Nat → TDecl
  arity : Nat → Nat
  bound : Nat → VDecl
  lit : Nat → Ty
  bool : Ty

/-- analyze/aps-info.h `TypeContour`, of a polymorphic declaration -/
structure Contour where
  source : Nat
  inferred : List (Option Ty)

abbrev Env := List Contour

/-- What is known of a variable: its type from the pattern, or the type of what the loop runs over. -/
inductive Src
  | pat (t : Ty)
  | seq (t : Ty)

/-- the mutable part: environments of uses, and what is known of variables -/
structure St where
  env : Nat → Env
  vars : Nat → Option Src

section
variable (P : Prog)

/-- analyze/aps-bind.c:90-116 (`instantiate_type_env`) -/
def instantiate (polys : List Nat) : Env := polys.map fun p => ⟨p, List.replicate (P.arity p) none⟩

/-- before the check: every use has an environment of its own (aps-bind.c:441-453) -/
def start : St where
  env u :=
    match P.bound u with
    | .value _ polys => instantiate P polys
    | .formal _ _ => []
  vars _ := none

/-- aps-type.c:2088-2150 — `base_type` -/
def base : Nat → Ty → Res Ty
  | 0, _ => .nofuel
  | n + 1, .remote t => base n t
  | n + 1, .use d =>
    match P.type d with
    | .alias t => base n t
    | _ => .ok (.use d)
  | _ + 1, t => .ok t

mutual
/-- aps-type.c:2199-2226 — `base_type_equal` -/
def baseEqual : Nat → Ty → Ty → Res Bool
  | 0, _, _ => .nofuel
  | n + 1, .func fs r, .func gs s => do
    let b ← formalsEqual n fs gs
    if b then
      let r' ← base P n r
      let s' ← base P n s
      baseEqual n r' s'
    else .ok false
  | _ + 1, .use d, .use e => .ok (d == e)
  | _ + 1, .other a, .other b => .ok (a == b)
  | _ + 1, _, _ => .ok false

/-- aps-type.c:2182-2196 — `declarations_type_equal` -/
def formalsEqual : Nat → Tys → Tys → Res Bool
  | 0, _, _ => .nofuel
  | _ + 1, .nil, .nil => .ok true
  | n + 1, .seq t, .seq s => do
    let t' ← base P n t
    let s' ← base P n s
    baseEqual n t' s'
  | n + 1, .cons t fs, .cons s gs => do
    let t' ← base P n t
    let s' ← base P n s
    let b ← baseEqual n t' s'
    if b then formalsEqual n fs gs else .ok false
  | _ + 1, _, _ => .ok false
end

/-- aps-type.c:2228-2247 — `check_type_equal` of two types -/
def checkEq (n : Nat) (t s : Ty) : Res Unit := do
  let t' ← base P n t
  let s' ← base P n s
  let b ← baseEqual P n t' s'
  if b then .ok () else .stop

/-- aps-type.c:2230 — a null pointer is equal to everything -/
def checkEqO (n : Nat) : Option Ty → Option Ty → Res Unit
  | some t, some s => checkEq P n t s
  | _, _ => .ok ()

/-- aps-type.c:878-936 — `type_element_type`, with `sig_element_type` (807-824) -/
def elemType : Nat → Ty → Res Ty
  | 0, _ => .nofuel
  | n + 1, .use d =>
    match P.type d with
    | .alias t => elemType n t
    | .nominal (some e) => .ok e
    | .nominal none => .stop
    | .formal _ _ (e :: _) => .ok e
    | .formal _ _ [] => .stop
  | n + 1, .remote t => elemType n t
  | _ + 1, _ => .stop

/-- aps-type.c:1675-1685 — `is_complete` -/
def complete (env : Env) : Bool := env.all fun c => c.inferred.all Option.isSome

/-- the contour of a formal: the loop at aps-type.c:1921-1922, 2355-2356 -/
def contour (env : Env) (p : Nat) : Option Contour := env.find? fun c => c.source == p

mutual
/-- aps-type.c:1829-1976, in an environment -/
def substTy (env : Env) : Ty → Res Ty
  | .use d =>
    match P.type d with
    | .formal p i _ =>
      match contour env p with
      | none => .ok (.use d)
      | some c =>
        match c.inferred[i]? with
        | some (some t) => .ok t
        | some none => .stop
        | none => .ub
    | _ => .ok (.use d)
  | .remote t => do
    let t' ← substTy env t
    .ok (.remote t')
  | .func fs r => do
    let fs' ← substTys env fs
    let r' ← substTy env r
    .ok (.func fs' r')
  | .other _ => .stop

/-- aps-type.c:1870-1885 — the formals -/
def substTys (env : Env) : Tys → Res Tys
  | .nil => .ok .nil
  | .seq t => do
    let t' ← substTy env t
    .ok (.seq t')
  | .cons t fs => do
    let t' ← substTy env t
    let fs' ← substTys env fs
    .ok (.cons t' fs')
end

/-- aps-type.c:1829-1843 — `type_subst`: nothing to do without an environment -/
def tsubst (env : Env) (t : Ty) : Res Ty := if env.isEmpty then .ok t else substTy P env t

/-- aps-type.c:2381 — an inferred type is noted -/
def setSlot (env : Env) (p i : Nat) (t : Option Ty) : Env :=
  match env with
  | [] => []
  | c :: env => if c.source == p then { c with inferred := c.inferred.set i t } :: env else c :: setSlot env p i t

/-- the same, for use `u` -/
def St.slot (st : St) (u p i : Nat) (t : Option Ty) : St :=
  { st with env := fun v => if v = u then setSlot (st.env u) p i t else st.env v }

mutual
/-- aps-type.c:2316-2430 — `check_type_subst` -/
def unify : Nat → Option Ty → Nat → Ty → St → Res St
  | 0, _, _, _, _ => .nofuel
  | n + 1, t1, u, t2, st =>
    if complete (st.env u) then do
      let t ← tsubst P (st.env u) t2
      checkEqO P n t1 (some t)
      .ok st
    else
      match t2 with
      | .remote t => unify n t1 u t st
      | .other _ => .stop
      | .func fs r =>
        match t1 with
        | none => .ub
        | some t => do
          let b ← base P n t
          match b with
          | .func gs s => do
            let st ← unifyFormals n gs u fs st
            unify n (some s) u r st
          | _ => .stop
      | .use d =>
        match P.type d with
        | .formal p i elems =>
          match contour (st.env u) p with
          | none => do
            checkEqO P n t1 (some t2)
            .ub
          | some c =>
            match c.inferred[i]? with
            | some none => unifySigs n t1 u elems (st.slot u p i t1)
            | some (some t) => do
              checkEqO P n t1 (some t)
              .ok st
            | none => .ub
        | _ => do
          checkEqO P n t1 (some t2)
          .ok st

/-- aps-type.c:2249-2266 — `check_declarations_type_subst` -/
def unifyFormals : Nat → Tys → Nat → Tys → St → Res St
  | 0, _, _, _, _ => .nofuel
  | _ + 1, .nil, _, .nil, st => .ok st
  | n + 1, .seq t, u, .seq s, st => unify n (some t) u s st
  | n + 1, .cons t gs, u, .cons s fs, st => do
    let st ← unify n (some t) u s st
    unifyFormals n gs u fs st
  | _ + 1, _, _, _, _ => .stop

/-- aps-type.c:2282-2314 — `check_type_signatures`: only element types are looked at -/
def unifySigs : Nat → Option Ty → Nat → List Ty → St → Res St
  | 0, _, _, _, _ => .nofuel
  | _ + 1, _, _, [], st => .ok st
  | _ + 1, none, _, _ :: _, _ => .ub
  | n + 1, some t, u, e :: es, st => do
    let el ← elemType P n t
    let st ← unify n (some el) u e st
    unifySigs n (some t) u es st
end

mutual
/-- expressions -/
inductive Ex
  | use (u : Nat)
  | lit (k : Nat)
  | typed (e : Ex) (t : Ty)
  | call (u : Nat) (as : Exs)
  | callT (e : Ex) (t : Ty) (as : Exs)
  | callE (f : Ex) (as : Exs)
  | append (a b : Ex)
  | rep (e : Ex)
  | guarded (e c : Ex)
  | controlled (e : Ex) (x : Nat) (xt : Option Ty) (set : Ex)
  | empty

/-- actual parameters -/
inductive Exs
  | nil
  | cons (e : Ex) (rest : Exs)
end

/-- aps-type.c:1474-1502 — `infer_formal_type` -/
def formalTy (n : Nat) (x : Nat) (t : Option Ty) (st : St) : Res Ty :=
  match t with
  | some t => .ok t
  | none =>
    match st.vars x with
    | some (.pat t) => .ok t
    | some (.seq t) => elemType P n t
    | none => .stop

/-- the type of what is used, before substitution (aps-type.c:530-552) -/
def declTy (n : Nat) (u : Nat) (st : St) : Res Ty :=
  match P.bound u with
  | .value t _ => .ok t
  | .formal x t => formalTy P n x t st

/-- what a loop runs over is remembered for its variable; a formal has one place -/
def setSeq (x : Nat) (t : Ty) (st : St) : Res St :=
  match st.vars x with
  | none => .ok { st with vars := fun y => if y = x then some (.seq t) else st.vars y }
  | some _ => .stop

/-- `type_envs == 0 || is_complete(USE_TYPE_ENV(type_envs))` -/
def known (ou : Option Nat) (st : St) : Bool :=
  match ou with
  | none => true
  | some u => complete (st.env u)

/-- `type_subst(type_envs, t)` -/
def tsubstO (ou : Option Nat) (st : St) (t : Ty) : Res Ty :=
  match ou with
  | none => .ok t
  | some u => tsubst P (st.env u) t

/-- `check_type_subst` -/
def unifyO (n : Nat) (t1 : Option Ty) (ou : Option Nat) (t2 : Ty) (st : St) : Res St :=
  match ou with
  | none => do
    checkEqO P n t1 (some t2)
    .ok st
  | some u => unify P n t1 u t2 st

/-- aps-type.c:1011-1013 — the formals left are not missed -/
def noneLeft : Tys → Bool
  | .nil => true
  | .seq _ => true
  | .cons _ _ => false

/-- the next formal, and those after it (aps-type.c:1009-1010) -/
def nextFormal : Tys → Option (Ty × Tys)
  | .nil => none
  | .seq t => some (t, .seq t)
  | .cons t fs => some (t, fs)

/-- aps-type.c:978-990, 1093-1098 — the function type -/
def asFunc : Ty → Res (Tys × Ty)
  | .func fs r => .ok (fs, r)
  | _ => .stop

mutual
/-- aps-type.c:520-623 — `infer_expr_type` -/
def infer (n : Nat) : Ex → St → Res (Ty × St)
  | .use u, st => do
    let t ← declTy P n u st
    let t' ← tsubst P (st.env u) t
    .ok (t', st)
  | .lit k, st => .ok (P.lit k, st)
  | .typed e t, st => do
    let st ← check n e t st
    .ok (t, st)
  | .call u as, st => do
    let t ← declTy P n u st
    let b ← base P n t
    let f ← asFunc b
    let st ← args n as f.1 (some u) st
    let r ← tsubstO P (some u) st f.2
    .ok (r, st)
  | .callT e t as, st => do
    let st ← check n e t st
    let b ← base P n t
    let f ← asFunc b
    let st ← args n as f.1 none st
    .ok (f.2, st)
  | .callE e as, st => do
    let x ← infer n e st
    let b ← base P n x.1
    let f ← asFunc b
    let st ← args n as f.1 none x.2
    .ok (f.2, st)
  | .append a b, st => do
    let x ← infer n a st
    let st ← check n b x.1 x.2
    .ok (x.1, st)
  | .rep e, st => do
    let x ← infer n e st
    let t ← elemType P n x.1
    .ok (t, x.2)
  | .guarded e c, st => do
    let x ← infer n e st
    let st ← check n c P.bool x.2
    .ok (x.1, st)
  | .controlled e x _ set, st => do
    let y ← infer n set st
    let _ ← elemType P n y.1
    let st ← setSeq x y.1 y.2
    infer n e st
  | .empty, _ => .stop

/-- aps-type.c:726-805 — `check_expr_type` -/
def check (n : Nat) : Ex → Ty → St → Res St
  | .use u, t, st => do
    let s ← declTy P n u st
    unify P n (some t) u s st
  | .lit k, t, st => do
    checkEq P n t (P.lit k)
    .ok st
  | .typed e s, t, st => do
    let st ← check n e s st
    checkEq P n t s
    .ok st
  | .call u as, t, st => do
    let s ← declTy P n u st
    let b ← base P n s
    let f ← asFunc b
    let st ← unify P n (some t) u f.2 st
    args n as f.1 (some u) st
  | .callT e s as, t, st => do
    let st ← check n e s st
    let b ← base P n s
    let f ← asFunc b
    let st ← args n as f.1 none st
    checkEq P n t f.2
    .ok st
  | .callE e as, t, st => do
    let x ← infer n e st
    let b ← base P n x.1
    let f ← asFunc b
    let st ← args n as f.1 none x.2
    checkEq P n t f.2
    .ok st
  | .append a b, t, st => do
    let st ← check n a t st
    check n b t st
  | .rep e, t, st => do
    let x ← infer n e st
    let s ← elemType P n x.1
    checkEq P n t s
    .ok x.2
  | .guarded e c, t, st => do
    let st ← check n e t st
    check n c P.bool st
  | .controlled e x _ set, t, st => do
    let y ← infer n set st
    let _ ← elemType P n y.1
    let st ← setSeq x y.1 y.2
    check n e t st
  | .empty, _, st => .ok st

/-- aps-type.c:993-1013 — the actuals of `check_actuals` -/
def args (n : Nat) : Exs → Tys → Option Nat → St → Res St
  | .nil, fs, _, st => if noneLeft fs then .ok st else .stop
  | .cons e as, fs, ou, st =>
    match nextFormal fs with
    | none => .stop
    | some f => do
      let st ← if known ou st then do
            let t ← tsubstO P ou st f.1
            check n e t st
          else do
            let x ← infer n e st
            unifyO P n (some x.1) ou f.1 x.2
      args n as f.2 ou st
end

mutual
/-- patterns -/
inductive Pat
  | use (u : Nat)
  | typed (p : Pat) (t : Ty)
  | call (u : Nat) (as : Pats)
  | callE (f : Pat) (as : Pats)
  | rest (p : Pat)
  | and (p q : Pat)
  | var (x : Nat) (t : Option Ty)
  | cond (e : Ex)
  | none

/-- actual parameters of a pattern -/
inductive Pats
  | nil
  | cons (p : Pat) (rest : Pats)
end

/-- aps-type.c:1209-1213, 1242-1250 — a variable without a type gets its type; seen again, it has to have the same. -/
def setPat (n : Nat) (x : Nat) (t : Ty) (st : St) : Res St :=
  match st.vars x with
  | Option.none => .ok { st with vars := fun y => if y = x then some (.pat t) else st.vars y }
  | some (.pat s) => do
    checkEq P n t s
    .ok st
  | some (.seq _) => .stop

/-- aps-type.c:1174-1182 -/
def inferVar (x : Nat) (t : Option Ty) (st : St) : Res (Option Ty × St) :=
  match t with
  | some _ => .ok (Option.none, st)
  | Option.none =>
    match st.vars x with
    | some (.pat s) => .ok (some s, st)
    | _ => .stop

/-- a pattern used as a function has a type -/
def notNull : Option Ty → Res Ty
  | some t => .ok t
  | Option.none => .ub

mutual
/-- aps-type.c:1135-1195 — `infer_pattern_type`; the result can be a null pointer -/
def inferP (n : Nat) : Pat → St → Res (Option Ty × St)
  | .use u, st => do
    let t ← declTy P n u st
    let t' ← tsubst P (st.env u) t
    .ok (some t', st)
  | .typed p t, st => do
    let st ← checkP n p t st
    .ok (some t, st)
  | .call u as, st => do
    let t ← declTy P n u st
    let t' ← tsubst P (st.env u) t
    let f ← asFunc t'
    let st ← argsP n as f.1 (some u) st
    let r ← tsubstO P (some u) st f.2
    .ok (some r, st)
  | .callE f as, st => do
    let x ← inferP n f st
    let t ← notNull x.1
    let f ← asFunc t
    let st ← argsP n as f.1 Option.none x.2
    .ok (some f.2, st)
  | .rest p, st => inferP n p st
  | .and p q, st => do
    let x ← inferP n q st
    match x.1 with
    | some t => do
      let st ← checkP n p t x.2
      .ok (some t, st)
    | Option.none => do
      let y ← inferP n p x.2
      .ok (Option.none, y.2)
  | .var x t, st => inferVar x t st
  | .cond _, _ => .stop
  | .none, _ => .stop

/-- aps-type.c:1197-1268 — `check_pattern_type`. The type of the pattern is noted before it is looked at
(line 1209), so for a typed pattern line 1237 compares the type with itself. -/
def checkP (n : Nat) : Pat → Ty → St → Res St
  | .use u, t, st => do
    let s ← declTy P n u st
    unify P n (some t) u s st
  | .typed _ _, _, st => .ok st
  | .call u as, t, st => do
    let s ← declTy P n u st
    let b ← base P n s
    let f ← asFunc b
    let st ← unify P n (some t) u f.2 st
    argsP n as f.1 (some u) st
  | .callE f as, t, st => do
    let x ← inferP n f st
    let s ← notNull x.1
    let f ← asFunc s
    let st ← argsP n as f.1 Option.none x.2
    checkEq P n t f.2
    .ok st
  | .rest p, t, st => checkP n p t st
  | .and p q, t, st => do
    let st ← checkP n q t st
    checkP n p t st
  | .var x Option.none, t, st => setPat P n x t st
  | .var _ (some s), t, st => do
    checkEq P n s t
    .ok st
  | .cond e, _, st => check P n e P.bool st
  | .none, _, st => .ok st

/-- aps-type.c:1271-1315 — `check_pattern_actuals` -/
def argsP (n : Nat) : Pats → Tys → Option Nat → St → Res St
  | .nil, fs, _, st => if noneLeft fs then .ok st else .stop
  | .cons p as, fs, ou, st =>
    match nextFormal fs with
    | Option.none => .stop
    | some f => do
      let st ← if known ou st then do
            let t ← tsubstO P ou st f.1
            checkP n p t st
          else do
            let x ← inferP n p st
            unifyO P n x.1 ou f.1 x.2
      argsP n as f.2 ou st
end

/-- defaults (aps-type.c:1411-1453) -/
inductive Dflt
  | none
  | simple (e : Ex)
  | composite (initial combiner : Ex)

mutual
/-- statements -/
inductive Stmt
  | value (t : Ty) (d : Dflt)
  | assign (lhs rhs : Ex)
  | ifs (c : Ex) (t f : Blk)
  | cases (e : Ex) (ms : Mats) (d : Blk)
  | fors (e : Ex) (ms : Mats)
  | forIn (x : Nat) (xt : Option Ty) (e : Ex) (body : Blk)
  | top (p : Pat) (body : Blk)

inductive Blk
  | nil
  | cons (s : Stmt) (rest : Blk)

inductive Mats
  | nil
  | cons (p : Pat) (body : Blk) (rest : Mats)
end

/-- aps-type.c:1411-1453 — `check_default_type` -/
def checkDflt (n : Nat) (t : Ty) : Dflt → St → Res St
  | .none, st => .ok st
  | .simple e, st => check P n e t st
  | .composite i c, st => do
    let st ← check P n i t st
    check P n c (.func (.cons t (.cons t .nil)) t) st

mutual
/-- aps-type.c:33-317 — `do_typechecking` -/
def checkS (n : Nat) : Stmt → St → Res St
  | .value t d, st => checkDflt P n t d st
  | .assign lhs rhs, st => do
    let x ← infer P n lhs st
    check P n rhs x.1 x.2
  | .ifs c t f, st => do
    let st ← check P n c P.bool st
    let st ← checkB n t st
    checkB n f st
  | .cases e ms d, st => do
    let x ← infer P n e st
    let st ← checkM n ms x.1 x.2
    checkB n d st
  | .fors e ms, st => do
    let x ← infer P n e st
    checkM n ms x.1 x.2
  | .forIn x _ e body, st => do
    let y ← infer P n e st
    let st ← setSeq x y.1 y.2
    checkB n body st
  | .top p body, st => do
    let x ← inferP P n p st
    checkB n body x.2

/-- the statements of a block, in order -/
def checkB (n : Nat) : Blk → St → Res St
  | .nil, st => .ok st
  | .cons s rest, st => do
    let st ← checkS n s st
    checkB n rest st

/-- aps-type.c:1455-1472 — `check_matchers_type` -/
def checkM (n : Nat) : Mats → Ty → St → Res St
  | .nil, _, st => .ok st
  | .cons p body rest, t, st => do
    let st ← checkP P n p t st
    let st ← checkB n body st
    checkM n rest t st
end

end
end Aps.TyCk

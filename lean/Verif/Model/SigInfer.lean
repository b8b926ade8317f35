import Verif.Model.CanonTy
/-!
# analyze/canonical-signature.c: the signatures of a type

Simplifications.
* Signatures and types are terms; C86 and C29 show that addresses of hash-consed ones are equal iff the terms are.
* A set of signatures is a list; only membership counts (C06: the code keeps each element once).
* Where the code reports an error and returns `NULL`, or dereferences something that is not there, the model stops.
* `alloca(canonical_sig->num_actuals)` (487, 574) reserves too few bytes; the model has room for all actuals.
* The recursion gets fuel.
-/
namespace Aps.SigInfer
open Aps.CType Aps.CanonTy

/-- A canonical signature (analyze/canonical-signature.h:4-12). -/
structure Sig where
  input : Bool
  var : Bool
  cls : Nat
  actuals : List Ty

/-- Signature expressions (aps-tree: `Signature`). -/
inductive SigExp
  | inst (input var : Bool) (cls : Nat) (actuals : List TExp)
  | mult (s1 s2 : SigExp)
  /-- `sig_use` of a `use` -/
  | use (d : Nat)
  /-- `sig_use` of a `qual_use` -/
  | qual («from» : TExp)
  | none_
  | fixed

/-- A program with signatures: the signature written for a type declaration or formal, whether it is a phylum, the result type and
the formals of a class or module, and the two basic modules. -/
structure SProg extends Prog where
  sig : Nat → SigExp
  phylum : Nat → Bool
  cls : Nat → Option (Nat × List Nat)
  TYPE : Nat
  PHYLUM : Nat

mutual
/-- equality of (addresses of) canonical types -/
def tyEq : Ty → Ty → Bool
  | .use d, .use e => d == e
  | .qual s d, .qual u e => tyEq s u && d == e
  | .func ps r, .func qs q => tysEq ps qs && tyEq r q
  | _, _ => false
/-- the same for lists -/
def tysEq : List Ty → List Ty → Bool
  | [], [] => true
  | p :: ps, q :: qs => tyEq p q && tysEq ps qs
  | _, _ => false
end

variable (P : SProg)

/-- analyze/canonical-type.c:284-307 -/
def typeDecl : Ty → Res Nat
  | .use d => .ok d
  | .qual _ d => .ok d
  | .func .. => .stop

/-- `canonical_type_base_type(canonical_type(t))` (analyze/canonical-signature.c:264, 401, 508, 595) -/
def baseOf (n : Nat) (t : TExp) : Res Ty := do
  let c ← canon P.toProg n t
  baseType P.toProg n c

/-- analyze/canonical-signature.c:259-267, 398-403 — the loop over the actuals -/
def basesOf (n : Nat) : List TExp → Res (List Ty)
  | [] => .ok []
  | t :: ts => do
    let b ← baseOf P n t
    let bs ← basesOf n ts
    return b :: bs

/-- analyze/canonical-signature.c:502-512, 589-599 — the loop over `k`: the base type of the actual with index `j`, if there is one -/
def pickActual (n : Nat) (dflt : Ty) : Nat → List TExp → Res Ty
  | _, [] => .ok dflt
  | 0, t :: _ => baseOf P n t
  | j + 1, _ :: ts => pickActual n dflt j ts

/-- analyze/canonical-signature.c:495-518, 582-605 — the loop over `j`: later formals win -/
def pickFormal (n : Nat) (as : List TExp) (f1 : Nat) : Nat → List Nat → Ty → Res Ty
  | _, [], acc => .ok acc
  | j, f2 :: fs, acc =>
    if f1 = f2 then do
      let acc ← pickActual P n acc j as
      pickFormal n as f1 (j + 1) fs acc
    else pickFormal n as f1 (j + 1) fs acc

/-- analyze/canonical-signature.c:490-519 — the loop over `i` when joining -/
def joinActuals (n : Nat) (source : Ty) (fs : List Nat) (as : List TExp) : List Ty → Res (List Ty)
  | [] => .ok []
  | c :: cs => do
    let x ← join P.toProg n source c false
    let f1 ← typeDecl c
    let x ← pickFormal P n as f1 0 fs x
    let xs ← joinActuals n source fs as cs
    return x :: xs

/-- analyze/canonical-signature.c:577-606 — the loop over `i` when substituting -/
def substActuals (n : Nat) (fs : List Nat) (as : List TExp) : List Ty → Res (List Ty)
  | [] => .ok []
  | c :: cs => do
    let f1 ← typeDecl c
    let x ← pickFormal P n as f1 0 fs c
    let xs ← substActuals n fs as cs
    return x :: xs

/-- the formals and actuals of the instance `T` (analyze/canonical-signature.c:484-485, 571-572) -/
def instanceOf (T : Nat) : Option (List Nat × List TExp) :=
  match P.decl T with
  | .type (.inst m as) =>
    match P.cls m with
    | some (_, fs) => some (fs, as)
    | none => none
  | _ => none

/-- analyze/canonical-signature.c:479-523 — joining with a `use` -/
def joinUse (n : Nat) (T : Nat) (s : Sig) : Res Sig :=
  match instanceOf P T with
  | none => .stop
  | some (fs, as) => do
    let xs ← joinActuals P n (.use T) fs as s.actuals
    return { s with actuals := xs }

/-- analyze/canonical-signature.c:465-528 -/
def joinSig (n : Nat) : Ty → Sig → Res Sig
  | .func .., s => .ok s
  | .qual source T, s => do
    let s ← joinUse P n T s
    joinSig n source s
  | .use T, s => joinUse P n T s

/-- analyze/canonical-signature.c:530-541 -/
def joinSet (n : Nat) (source : Ty) : List Sig → Res (List Sig)
  | [] => .ok []
  | s :: ss => do
    let s ← joinSig P n source s
    let ss ← joinSet n source ss
    return s :: ss

/-- analyze/canonical-signature.c:543-614, for a source that is a `use` (the only one that occurs, 439) -/
def substSig (n : Nat) (T : Nat) (s : Sig) : Res Sig :=
  match instanceOf P T with
  | none => .stop
  | some (fs, as) => do
    let xs ← substActuals P n fs as s.actuals
    return { s with actuals := xs }

/-- analyze/canonical-signature.c:622-633 -/
def substSet (n : Nat) (T : Nat) : List Sig → Res (List Sig)
  | [] => .ok []
  | s :: ss => do
    let s ← substSig P n T s
    let ss ← substSet n T ss
    return s :: ss

mutual
/-- analyze/canonical-signature.c:413-462 -/
def fromDecl : Nat → Nat → Res (List Sig)
  | 0, _ => .nofuel
  | n + 1, d =>
    match P.decl d with
    | .type t =>
      Res.bind
        (match P.sig d with
        | .none_ => fromType n (P.phylum d) t
        | σ => do
          let r1 ← fromSig n σ
          let r2 ← fromType n (P.phylum d) t
          return r1 ++ r2)
        (fun re =>
          match t with
          | .inst .. => substSet P n d re
          | _ => .ok re)
    | .formal _ => fromSig n (P.sig d)
    | _ => .stop

/-- analyze/canonical-signature.c:384-411. -/
def fromType : Nat → Bool → TExp → Res (List Sig)
  | 0, _, _ => .nofuel
  | n + 1, _, .use d => do
    let c ← canon P.toProg n (.use d)
    infer n c
  | n + 1, _, .qual t d => do
    let c ← canon P.toProg n (.qual t d)
    infer n c
  | n + 1, _, .inst m as => do
    let bs ← basesOf P n as
    match P.cls m with
    | none => .stop
    | some (r, _) => do
      -- 235-242
      let rs ← fromDecl n r
      return ⟨true, true, m, bs⟩ :: rs
  | _ + 1, phy, .opq => .ok [⟨true, true, if phy then P.PHYLUM else P.TYPE, []⟩]
  | _ + 1, _, _ => .stop

/-- analyze/canonical-signature.c:250-320 -/
def fromSig : Nat → SigExp → Res (List Sig)
  | 0, _ => .nofuel
  | n + 1, .inst i v m as => do
    let bs ← basesOf P n as
    match P.cls m with
    | none => .stop
    | some (r, _) => do
      let rs ← fromDecl n r
      return ⟨i, v, m, bs⟩ :: rs
  | n + 1, .mult s1 s2 => do
    let a ← fromSig n s1
    let b ← fromSig n s2
    return a ++ b
  | n + 1, .use d => fromDecl n d
  | n + 1, .qual t => fromType n false t
  | _ + 1, .none_ => .ok []
  | _ + 1, .fixed => .ok []

/-- analyze/canonical-signature.c:640-693. -/
def infer : Nat → Ty → Res (List Sig)
  | 0, _ => .nofuel
  | n + 1, c =>
    Res.bind
      (match c with
      | .use d => fromDecl n d
      | .qual s d => do
        let ss ← fromDecl n d
        joinSet P n s ss
      | .func .. => .ok [])
      (fun result => do
        let b ← baseType P.toProg n c
        match c with
        | .func .. => return result
        | _ =>
          if tyEq b c then return result
          else do
            let more ← infer n b
            return result ++ more)
end

end Aps.SigInfer

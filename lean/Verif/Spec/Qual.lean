import Verif.Model.Qual
import Verif.Spec.Bind
/-!
# Specification: the frames of a type

What can be named after `T$` is a chain of frames as for scopes (`Spec/Bind`): of a module its public declarations, then
those of the module it extends, then those of the parameter it extends; of a multiple signature the later one first.
-/
namespace Aps.Qual
open Aps.Bind (Chain Info)

/-- `Frames P j ch`: the frames of a class, signature or type. -/
inductive Frames (P : Prog) : Job → Chain → Prop where
  | inst {c C a b} : P.cls c = some C → Frames P (.formals C.formals) a → Frames P (.result C.resultIsType C.result) b →
      Frames P (.inst (some c)) (C.contents :: (b ++ a))
  | formalsNil : Frames P (.formals []) []
  | plain {f fs a} : f.extended = false → Frames P (.formals fs) a → Frames P (.formals (f :: fs)) a
  | extended {f fs a b} : f.extended = true → f.phylum = false → Frames P (.sig f.sig) a → Frames P (.formals fs) b →
      Frames P (.formals (f :: fs)) (b ++ a)
  | extends_ {m a} : Frames P (.inst m) a → Frames P (.result true (.inst m)) a
  | resultOther {b t} : (b = true → ∀ m, t ≠ .inst m) → Frames P (.result b t) []
  | sigDecl {d s a} : P.sig d = .decl s → Frames P (.sig s) a → Frames P (.sig (.use d)) a
  | sigRenaming {d s a} : P.sig d = .renaming s → Frames P (.sig s) a → Frames P (.sig (.use d)) a
  | sigOther {d} : P.sig d = .other → Frames P (.sig (.use d)) []
  | sigInst {c a} : Frames P (.inst (some c)) a → Frames P (.sig (.inst (some c))) a
  | mult {s t a b} : Frames P (.sig s) a → Frames P (.sig t) b → Frames P (.sig (.mult s t)) (b ++ a)
  | fixed : Frames P (.sig .fixed) []
  | noSig : Frames P (.sig .none) []
  | unbound : Frames P (.ty (.use none)) []
  | typePlain {d a} : P.tdef d = .typeDecl .noType → Frames P (.inst P.moduleTYPE) a → Frames P (.ty (.use (some d))) a
  | typeUnbound {d} : P.tdef d = .typeDecl (.inst none) → Frames P (.ty (.use (some d))) []
  | typeInst {d m a} : P.tdef d = .typeDecl (.inst (some m)) → Frames P (.inst (some m)) a →
      Frames P (.ty (.use (some d))) a
  | typeOther {d t a} : P.tdef d = .typeDecl t → t ≠ .noType → (∀ m, t ≠ .inst m) → Frames P (.ty t) a →
      Frames P (.ty (.use (some d))) a
  | phylumPlain {d a} : P.tdef d = .phylumDecl .noType → Frames P (.inst P.modulePHYLUM) a →
      Frames P (.ty (.use (some d))) a
  | phylumInst {d m a} : P.tdef d = .phylumDecl (.inst m) → Frames P (.inst m) a → Frames P (.ty (.use (some d))) a
  | phylumOther {d t a} : P.tdef d = .phylumDecl t → t ≠ .noType → (∀ m, t ≠ .inst m) → Frames P (.ty t) a →
      Frames P (.ty (.use (some d))) a
  | typeRenaming {d t a} : P.tdef d = .renaming t → Frames P (.ty t) a → Frames P (.ty (.use (some d))) a
  | formal {d s a} : P.tdef d = .formal s → Frames P (.sig s) a → Frames P (.ty (.use (some d))) a
  | other {d} : P.tdef d = .other → Frames P (.ty (.use (some d))) []
  | tyInst {m} : Frames P (.ty (.inst m)) []
  | remote {t a} : Frames P (.ty t) a → Frames P (.ty (.remote t)) a
  | priv {t a} : Frames P (.ty t) a → Frames P (.ty (.priv t)) a
  | func : Frames P (.ty .func) []
  | noType : Frames P (.ty .noType) []

end Aps.Qual

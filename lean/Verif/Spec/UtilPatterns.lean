import Verif.Model.UtilTables
/-!
# The patterns of the grammar that parse/aps-util.c implements

Extracted by `tools/gen_util.py` from parse/aps-tree.aps: for a function `p_f`, the alternatives of `pattern p(…)`, each
with the position of `?f` in it.  The last six functions have no pattern in the grammar ("Others that should have been
given definitions in aps-tree.aps", aps-util.h): there the constructors are those meant by the name of the function, and
the position is that of the field of this name.
-/
namespace Aps.Util
open Aps.Ast

/-- The constructors that the pattern of a function matches, with the position of the field. -/
def patternField : Fn → List (Con × Nat)
  -- pattern replacement, field from
  | .replacement_from => [(.class_replacement, 0), (.module_replacement, 0), (.signature_replacement, 0), (.type_replacement, 0), (.value_replacement, 0), (.pattern_replacement, 0)]
  -- pattern replacement, field as
  | .replacement_to => [(.class_replacement, 1), (.module_replacement, 1), (.signature_replacement, 1), (.type_replacement, 1), (.value_replacement, 1), (.pattern_replacement, 1)]
  -- pattern renaming, field def
  | .renaming_def => [(.class_renaming, 0), (.module_renaming, 0), (.signature_renaming, 0), (.type_renaming, 0), (.value_renaming, 0), (.pattern_renaming, 0)]
  -- pattern renaming, field old
  | .renaming_old => [(.class_renaming, 1), (.module_renaming, 1), (.signature_renaming, 1), (.type_renaming, 1), (.value_renaming, 1), (.pattern_renaming, 1)]
  -- pattern formal, field def
  | .formal_def => [(.normal_formal, 0), (.seq_formal, 0)]
  -- pattern formal, field type
  | .formal_type => [(.normal_formal, 1), (.seq_formal, 1)]
  -- pattern some_type_formal, field def
  | .some_type_formal_def => [(.type_formal, 0), (.phylum_formal, 0)]
  -- pattern some_type_formal, field sig
  | .some_type_formal_sig => [(.type_formal, 1), (.phylum_formal, 1)]
  -- pattern declaration, field def
  | .declaration_def => [(.class_decl, 0), (.class_renaming, 0), (.module_decl, 0), (.module_renaming, 0), (.signature_decl, 0), (.signature_renaming, 0), (.phylum_decl, 0), (.type_decl, 0), (.type_renaming, 0), (.type_formal, 0), (.phylum_formal, 0), (.pattern_decl, 0), (.constructor_decl, 0), (.pattern_renaming, 0), (.value_decl, 0), (.attribute_decl, 0), (.function_decl, 0), (.procedure_decl, 0), (.value_renaming, 0), (.normal_formal, 0), (.seq_formal, 0), (.inheritance, 0), (.polymorphic, 0)]
  -- pattern some_class_decl, field def
  | .some_class_decl_def => [(.class_decl, 0), (.module_decl, 0)]
  -- pattern some_class_decl, field type_formals
  | .some_class_decl_type_formals => [(.class_decl, 1), (.module_decl, 1)]
  -- pattern some_class_decl, field result_type
  | .some_class_decl_result_type => [(.class_decl, 2), (.module_decl, 3)]
  -- pattern some_class_decl, field parent
  | .some_class_decl_parent => [(.class_decl, 3), (.module_decl, 4)]
  -- pattern some_class_decl, field contents
  | .some_class_decl_contents => [(.class_decl, 4), (.module_decl, 5)]
  -- pattern some_type_decl, field def
  | .some_type_decl_def => [(.type_decl, 0), (.phylum_decl, 0)]
  -- pattern some_type_decl, field sig
  | .some_type_decl_sig => [(.type_decl, 1), (.phylum_decl, 1)]
  -- pattern some_type_decl, field type
  | .some_type_decl_type => [(.type_decl, 2), (.phylum_decl, 2)]
  -- pattern assign, field lhs
  | .assign_lhs => [(.normal_assign, 0), (.collect_assign, 0)]
  -- pattern assign, field rhs
  | .assign_rhs => [(.normal_assign, 1), (.collect_assign, 1)]
  | .some_value_decl_type => [(.value_decl, 1), (.attribute_decl, 1), (.function_decl, 1), (.procedure_decl, 1), (.constructor_decl, 1), (.normal_formal, 1), (.seq_formal, 1)]
  | .some_function_decl_def => [(.function_decl, 0), (.procedure_decl, 0)]
  | .some_function_decl_type => [(.function_decl, 1), (.procedure_decl, 1)]
  | .some_function_decl_body => [(.function_decl, 2), (.procedure_decl, 2)]
  | .some_case_stmt_expr => [(.case_stmt, 0), (.for_stmt, 0)]
  | .some_case_stmt_matchers => [(.case_stmt, 1), (.for_stmt, 1)]
  | .some_use_u => []

/-- `pattern some_use(u)` of the grammar. -/
def usePattern : List (Con × Nat) := [(.class_use, 0), (.module_use, 0), (.sig_use, 0), (.type_use, 0), (.value_use, 0), (.pattern_use, 0)]

end Aps.Util

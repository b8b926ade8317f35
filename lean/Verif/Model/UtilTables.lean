import Verif.Model.AstTables
/-!
# The functions of parse/aps-util.c

Extracted by `tools/gen_util.py`; the script consumes every line of the file.  A label like `case KEYrenaming:` is a
macro of parse/aps-util.h, written out here.
-/
namespace Aps.Util
open Aps.Ast

/-- The functions. -/
inductive Fn where
  | replacement_from
  | replacement_to
  | renaming_def
  | renaming_old
  | some_use_u
  | formal_def
  | formal_type
  | some_type_formal_def
  | some_type_formal_sig
  | declaration_def
  | some_class_decl_def
  | some_class_decl_type_formals
  | some_class_decl_result_type
  | some_class_decl_parent
  | some_class_decl_contents
  | some_type_decl_def
  | some_type_decl_sig
  | some_type_decl_type
  | some_value_decl_type
  | assign_lhs
  | assign_rhs
  | some_function_decl_def
  | some_function_decl_type
  | some_function_decl_body
  | some_case_stmt_expr
  | some_case_stmt_matchers
  deriving DecidableEq, Repr

/-- What a case calls: an accessor function, or another of the functions. -/
inductive Call where
  | acc (a : Acc)
  | fn (f : Fn)
  deriving DecidableEq, Repr

/-- The cases of the `switch (Declaration_KEY(_node))` of a function, in order. -/
def cases : Fn → List (Con × Call)
  -- aps-util.c:11-22
  | .replacement_from => [(.class_replacement, .acc .class_replacement_class), (.module_replacement, .acc .module_replacement_module), (.signature_replacement, .acc .signature_replacement_sig), (.type_replacement, .acc .type_replacement_type), (.value_replacement, .acc .value_replacement_value), (.pattern_replacement, .acc .pattern_replacement_pattern)]
  -- aps-util.c:24-35
  | .replacement_to => [(.class_replacement, .acc .class_replacement_as), (.module_replacement, .acc .module_replacement_as), (.signature_replacement, .acc .signature_replacement_as), (.type_replacement, .acc .type_replacement_as), (.value_replacement, .acc .value_replacement_as), (.pattern_replacement, .acc .pattern_replacement_as)]
  -- aps-util.c:37-48
  | .renaming_def => [(.class_renaming, .acc .class_renaming_def), (.module_renaming, .acc .module_renaming_def), (.signature_renaming, .acc .signature_renaming_def), (.type_renaming, .acc .type_renaming_def), (.value_renaming, .acc .value_renaming_def), (.pattern_renaming, .acc .pattern_renaming_def)]
  -- aps-util.c:50-61
  | .renaming_old => [(.class_renaming, .acc .class_renaming_old), (.module_renaming, .acc .module_renaming_old), (.signature_renaming, .acc .signature_renaming_old), (.type_renaming, .acc .type_renaming_old), (.value_renaming, .acc .value_renaming_old), (.pattern_renaming, .acc .pattern_renaming_old)]
  | .some_use_u => []
  -- aps-util.c:75-82
  | .formal_def => [(.normal_formal, .acc .normal_formal_def), (.seq_formal, .acc .seq_formal_def)]
  -- aps-util.c:84-91
  | .formal_type => [(.normal_formal, .acc .normal_formal_type), (.seq_formal, .acc .seq_formal_type)]
  -- aps-util.c:93-100
  | .some_type_formal_def => [(.type_formal, .acc .type_formal_def), (.phylum_formal, .acc .phylum_formal_def)]
  -- aps-util.c:102-109
  | .some_type_formal_sig => [(.type_formal, .acc .type_formal_sig), (.phylum_formal, .acc .phylum_formal_sig)]
  -- aps-util.c:111-132
  | .declaration_def => [(.class_decl, .acc .class_decl_def), (.module_decl, .acc .module_decl_def), (.signature_decl, .acc .signature_decl_def), (.phylum_decl, .acc .phylum_decl_def), (.type_decl, .acc .type_decl_def), (.value_decl, .acc .value_decl_def), (.attribute_decl, .acc .attribute_decl_def), (.function_decl, .acc .function_decl_def), (.procedure_decl, .acc .procedure_decl_def), (.constructor_decl, .acc .constructor_decl_def), (.pattern_decl, .acc .pattern_decl_def), (.class_renaming, .fn .renaming_def), (.module_renaming, .fn .renaming_def), (.signature_renaming, .fn .renaming_def), (.type_renaming, .fn .renaming_def), (.value_renaming, .fn .renaming_def), (.pattern_renaming, .fn .renaming_def), (.normal_formal, .fn .formal_def), (.seq_formal, .fn .formal_def), (.type_formal, .fn .some_type_formal_def), (.phylum_formal, .fn .some_type_formal_def), (.inheritance, .acc .inheritance_def), (.polymorphic, .acc .polymorphic_def)]
  -- aps-util.c:134-141
  | .some_class_decl_def => [(.class_decl, .acc .class_decl_def), (.module_decl, .acc .module_decl_def)]
  -- aps-util.c:143-150
  | .some_class_decl_type_formals => [(.class_decl, .acc .class_decl_type_formals), (.module_decl, .acc .module_decl_type_formals)]
  -- aps-util.c:152-159
  | .some_class_decl_result_type => [(.class_decl, .acc .class_decl_result_type), (.module_decl, .acc .module_decl_result_type)]
  -- aps-util.c:161-168
  | .some_class_decl_parent => [(.class_decl, .acc .class_decl_parent), (.module_decl, .acc .module_decl_parent)]
  -- aps-util.c:170-177
  | .some_class_decl_contents => [(.class_decl, .acc .class_decl_contents), (.module_decl, .acc .module_decl_contents)]
  -- aps-util.c:179-186
  | .some_type_decl_def => [(.type_decl, .acc .type_decl_def), (.phylum_decl, .acc .phylum_decl_def)]
  -- aps-util.c:188-195
  | .some_type_decl_sig => [(.type_decl, .acc .type_decl_sig), (.phylum_decl, .acc .phylum_decl_sig)]
  -- aps-util.c:197-204
  | .some_type_decl_type => [(.type_decl, .acc .type_decl_type), (.phylum_decl, .acc .phylum_decl_type)]
  -- aps-util.c:206-217
  | .some_value_decl_type => [(.value_decl, .acc .value_decl_type), (.attribute_decl, .acc .attribute_decl_type), (.function_decl, .acc .function_decl_type), (.procedure_decl, .acc .procedure_decl_type), (.constructor_decl, .acc .constructor_decl_type), (.normal_formal, .fn .formal_type), (.seq_formal, .fn .formal_type)]
  -- aps-util.c:219-226
  | .assign_lhs => [(.normal_assign, .acc .normal_assign_lhs), (.collect_assign, .acc .collect_assign_lhs)]
  -- aps-util.c:228-235
  | .assign_rhs => [(.normal_assign, .acc .normal_assign_rhs), (.collect_assign, .acc .collect_assign_rhs)]
  -- aps-util.c:237-244
  | .some_function_decl_def => [(.function_decl, .acc .function_decl_def), (.procedure_decl, .acc .procedure_decl_def)]
  -- aps-util.c:246-253
  | .some_function_decl_type => [(.function_decl, .acc .function_decl_type), (.procedure_decl, .acc .procedure_decl_type)]
  -- aps-util.c:255-262
  | .some_function_decl_body => [(.function_decl, .acc .function_decl_body), (.procedure_decl, .acc .procedure_decl_body)]
  -- aps-util.c:264-271
  | .some_case_stmt_expr => [(.case_stmt, .acc .case_stmt_expr), (.for_stmt, .acc .for_stmt_expr)]
  -- aps-util.c:273-280
  | .some_case_stmt_matchers => [(.case_stmt, .acc .case_stmt_matchers), (.for_stmt, .acc .for_stmt_matchers)]

/-- The cases of the `switch (ABSTRACT_APS_tnode_phylum(_node))` of `some_use_u` (aps-util.c:63-73). -/
def useCases : List (Phylum × Acc) :=
  [(.Class, .class_use_use), (.Module, .module_use_use), (.Signature, .sig_use_use), (.Type, .type_use_use), (.Expression, .value_use_use), (.Pattern, .pattern_use_use)]

end Aps.Util

/-!
# The abstract syntax of APS

Extracted by `tools/gen_ast.py` from the grammar parse/aps-tree.aps, which is the description of
the tree the C files were generated from: the phyla, the constructors, and the phylum of each field
of each constructor.  A phylum declared as a `SEQUENCE[T]` has the three constructors `nil_`,
`list_` (one element) and `append_` (two sequences).
-/
namespace Aps.Ast

/-- The phyla (aps-tree.aps:6-41). -/
inductive Phylum where
  | Signature | Type | Expression | Pattern | Module | Class | Def | Use | Program | Unit
  | Declaration | Block | Match | Direction | Default | Units | Declarations | Matches | Types
  | Expressions | Patterns | Actuals | TypeActuals | PatternActuals
  deriving DecidableEq, Repr

/-- All phyla. -/
def Phylum.all : List Phylum :=
  [.Signature, .Type, .Expression, .Pattern, .Module, .Class, .Def, .Use, .Program, .Unit,
   .Declaration, .Block, .Match, .Direction, .Default, .Units, .Declarations, .Matches, .Types,
   .Expressions, .Patterns, .Actuals, .TypeActuals, .PatternActuals]

/-- The kinds of fields that are not tree nodes. -/
inductive Leaf where
  | symbol | string | boolean
  deriving DecidableEq, Repr

/-- What a field of a constructor holds. -/
inductive Kind where
  | ph (p : Phylum)
  | leaf (l : Leaf)
  deriving DecidableEq, Repr

/-- The constructors (aps-tree.aps:53-382). -/
inductive Con where
  | program | no_unit | with_unit | decl_unit | no_decl | block | class_decl | module_decl
  | signature_decl | phylum_decl | type_decl | value_decl | attribute_decl | function_decl
  | procedure_decl | constructor_decl | pattern_decl | inheritance | polymorphic | pragma_call
  | top_level_match | class_replacement | module_replacement | signature_replacement
  | type_replacement | value_replacement | pattern_replacement | class_renaming
  | module_renaming | signature_renaming | type_renaming | value_renaming | pattern_renaming
  | direction | simple | composite | no_default | normal_formal | seq_formal | type_formal
  | phylum_formal | «def» | use | qual_use | class_use | module_use | type_use | type_inst
  | no_type | value_use | typed_value | sig_use | sig_inst | no_sig | pattern_use | no_pattern
  | typed_pattern | fixed_sig | mult_sig | remote_type | function_type | private_type
  | match_pattern | pattern_call | pattern_actual | rest_pattern | choice_pattern | and_pattern
  | pattern_var | condition | hole | pattern_function | block_stmt | effect | multi_call
  | normal_assign | collect_assign | if_stmt | for_in_stmt | for_stmt | case_stmt | matcher
  | integer_const | real_const | string_const | char_const | undefined | no_expr | funcall
  | append | empty | class_value | module_value | signature_value | type_value | pattern_value
  | «repeat» | guarded | controlled | nil_Units | list_Units | append_Units | nil_Declarations
  | list_Declarations | append_Declarations | nil_Matches | list_Matches | append_Matches
  | nil_Types | list_Types | append_Types | nil_Expressions | list_Expressions
  | append_Expressions | nil_Patterns | list_Patterns | append_Patterns | nil_Actuals
  | list_Actuals | append_Actuals | nil_TypeActuals | list_TypeActuals | append_TypeActuals
  | nil_PatternActuals | list_PatternActuals | append_PatternActuals
  deriving DecidableEq, Repr

/-- The fields, each named by its constructor and its name in the grammar.  The accessor function
of aps-tree.c for a field has the same name (that of `type_value_t` is `type_value_T`). -/
inductive Acc where
  | program_name | program_units | with_unit_name | decl_unit_decl | block_body | class_decl_def
  | class_decl_type_formals | class_decl_result_type | class_decl_parent | class_decl_contents
  | module_decl_def | module_decl_type_formals | module_decl_value_formals
  | module_decl_result_type | module_decl_parent | module_decl_contents | signature_decl_def
  | signature_decl_sig | phylum_decl_def | phylum_decl_sig | phylum_decl_type | type_decl_def
  | type_decl_sig | type_decl_type | value_decl_def | value_decl_type | value_decl_direction
  | value_decl_default | attribute_decl_def | attribute_decl_type | attribute_decl_direction
  | attribute_decl_default | function_decl_def | function_decl_type | function_decl_body
  | procedure_decl_def | procedure_decl_type | procedure_decl_body | constructor_decl_def
  | constructor_decl_type | pattern_decl_def | pattern_decl_type | pattern_decl_choices
  | inheritance_def | inheritance_used | inheritance_body | polymorphic_def
  | polymorphic_type_formals | polymorphic_body | pragma_call_name | pragma_call_parameters
  | top_level_match_m | class_replacement_class | class_replacement_as
  | module_replacement_module | module_replacement_as | signature_replacement_sig
  | signature_replacement_as | type_replacement_type | type_replacement_as
  | value_replacement_value | value_replacement_as | pattern_replacement_pattern
  | pattern_replacement_as | class_renaming_def | class_renaming_old | module_renaming_def
  | module_renaming_old | signature_renaming_def | signature_renaming_old | type_renaming_def
  | type_renaming_old | value_renaming_def | value_renaming_old | pattern_renaming_def
  | pattern_renaming_old | direction_is_input | direction_is_collection | direction_is_circular
  | simple_value | composite_initial | composite_combiner | normal_formal_def
  | normal_formal_type | seq_formal_def | seq_formal_type | type_formal_def | type_formal_sig
  | phylum_formal_def | phylum_formal_sig | def_name | def_is_constant | def_is_public
  | use_name | qual_use_from | qual_use_name | class_use_use | module_use_use | type_use_use
  | type_inst_module | type_inst_type_actuals | type_inst_actuals | value_use_use
  | typed_value_expr | typed_value_type | sig_use_use | sig_inst_is_input | sig_inst_is_var
  | sig_inst_class | sig_inst_actuals | pattern_use_use | typed_pattern_pat | typed_pattern_type
  | fixed_sig_types | mult_sig_sig1 | mult_sig_sig2 | remote_type_nodetype
  | function_type_formals | function_type_return_values | private_type_rep | match_pattern_pat
  | match_pattern_type | pattern_call_func | pattern_call_actuals | pattern_actual_arg
  | pattern_actual_formal | rest_pattern_constraint | choice_pattern_choices | and_pattern_p1
  | and_pattern_p2 | pattern_var_formal | condition_e | pattern_function_formals
  | pattern_function_body | block_stmt_body | effect_e | multi_call_proc | multi_call_actuals
  | multi_call_results | normal_assign_lhs | normal_assign_rhs | collect_assign_lhs
  | collect_assign_rhs | if_stmt_cond | if_stmt_if_true | if_stmt_if_false | for_in_stmt_formal
  | for_in_stmt_seq | for_in_stmt_body | for_stmt_expr | for_stmt_matchers | case_stmt_expr
  | case_stmt_matchers | case_stmt_default | matcher_pat | matcher_body | integer_const_token
  | real_const_token | string_const_token | char_const_token | funcall_f | funcall_actuals
  | append_s1 | append_s2 | class_value_c | module_value_m | signature_value_s | type_value_t
  | pattern_value_p | repeat_expr | guarded_expr | guarded_cond | controlled_expr
  | controlled_formal | controlled_set | list_Units_elem | append_Units_l1 | append_Units_l2
  | list_Declarations_elem | append_Declarations_l1 | append_Declarations_l2 | list_Matches_elem
  | append_Matches_l1 | append_Matches_l2 | list_Types_elem | append_Types_l1 | append_Types_l2
  | list_Expressions_elem | append_Expressions_l1 | append_Expressions_l2 | list_Patterns_elem
  | append_Patterns_l1 | append_Patterns_l2 | list_Actuals_elem | append_Actuals_l1
  | append_Actuals_l2 | list_TypeActuals_elem | append_TypeActuals_l1 | append_TypeActuals_l2
  | list_PatternActuals_elem | append_PatternActuals_l1 | append_PatternActuals_l2
  deriving DecidableEq, Repr

namespace Con

/-- All constructors. -/
def all : List Con :=
  [.program, .no_unit, .with_unit, .decl_unit, .no_decl, .block, .class_decl, .module_decl,
   .signature_decl, .phylum_decl, .type_decl, .value_decl, .attribute_decl, .function_decl,
   .procedure_decl, .constructor_decl, .pattern_decl, .inheritance, .polymorphic, .pragma_call,
   .top_level_match, .class_replacement, .module_replacement, .signature_replacement,
   .type_replacement, .value_replacement, .pattern_replacement, .class_renaming,
   .module_renaming, .signature_renaming, .type_renaming, .value_renaming, .pattern_renaming,
   .direction, .simple, .composite, .no_default, .normal_formal, .seq_formal, .type_formal,
   .phylum_formal, .«def», .use, .qual_use, .class_use, .module_use, .type_use, .type_inst,
   .no_type, .value_use, .typed_value, .sig_use, .sig_inst, .no_sig, .pattern_use, .no_pattern,
   .typed_pattern, .fixed_sig, .mult_sig, .remote_type, .function_type, .private_type,
   .match_pattern, .pattern_call, .pattern_actual, .rest_pattern, .choice_pattern, .and_pattern,
   .pattern_var, .condition, .hole, .pattern_function, .block_stmt, .effect, .multi_call,
   .normal_assign, .collect_assign, .if_stmt, .for_in_stmt, .for_stmt, .case_stmt, .matcher,
   .integer_const, .real_const, .string_const, .char_const, .undefined, .no_expr, .funcall,
   .append, .empty, .class_value, .module_value, .signature_value, .type_value, .pattern_value,
   .«repeat», .guarded, .controlled, .nil_Units, .list_Units, .append_Units, .nil_Declarations,
   .list_Declarations, .append_Declarations, .nil_Matches, .list_Matches, .append_Matches,
   .nil_Types, .list_Types, .append_Types, .nil_Expressions, .list_Expressions,
   .append_Expressions, .nil_Patterns, .list_Patterns, .append_Patterns, .nil_Actuals,
   .list_Actuals, .append_Actuals, .nil_TypeActuals, .list_TypeActuals, .append_TypeActuals,
   .nil_PatternActuals, .list_PatternActuals, .append_PatternActuals]

/-- The phylum a constructor belongs to. -/
def phylum : Con → Phylum
  | .program => .Program
  | .no_unit => .Unit
  | .with_unit => .Unit
  | .decl_unit => .Unit
  | .no_decl => .Declaration
  | .block => .Block
  | .class_decl => .Declaration
  | .module_decl => .Declaration
  | .signature_decl => .Declaration
  | .phylum_decl => .Declaration
  | .type_decl => .Declaration
  | .value_decl => .Declaration
  | .attribute_decl => .Declaration
  | .function_decl => .Declaration
  | .procedure_decl => .Declaration
  | .constructor_decl => .Declaration
  | .pattern_decl => .Declaration
  | .inheritance => .Declaration
  | .polymorphic => .Declaration
  | .pragma_call => .Declaration
  | .top_level_match => .Declaration
  | .class_replacement => .Declaration
  | .module_replacement => .Declaration
  | .signature_replacement => .Declaration
  | .type_replacement => .Declaration
  | .value_replacement => .Declaration
  | .pattern_replacement => .Declaration
  | .class_renaming => .Declaration
  | .module_renaming => .Declaration
  | .signature_renaming => .Declaration
  | .type_renaming => .Declaration
  | .value_renaming => .Declaration
  | .pattern_renaming => .Declaration
  | .direction => .Direction
  | .simple => .Default
  | .composite => .Default
  | .no_default => .Default
  | .normal_formal => .Declaration
  | .seq_formal => .Declaration
  | .type_formal => .Declaration
  | .phylum_formal => .Declaration
  | .«def» => .Def
  | .use => .Use
  | .qual_use => .Use
  | .class_use => .Class
  | .module_use => .Module
  | .type_use => .Type
  | .type_inst => .Type
  | .no_type => .Type
  | .value_use => .Expression
  | .typed_value => .Expression
  | .sig_use => .Signature
  | .sig_inst => .Signature
  | .no_sig => .Signature
  | .pattern_use => .Pattern
  | .no_pattern => .Pattern
  | .typed_pattern => .Pattern
  | .fixed_sig => .Signature
  | .mult_sig => .Signature
  | .remote_type => .Type
  | .function_type => .Type
  | .private_type => .Type
  | .match_pattern => .Pattern
  | .pattern_call => .Pattern
  | .pattern_actual => .Pattern
  | .rest_pattern => .Pattern
  | .choice_pattern => .Pattern
  | .and_pattern => .Pattern
  | .pattern_var => .Pattern
  | .condition => .Pattern
  | .hole => .Pattern
  | .pattern_function => .Pattern
  | .block_stmt => .Declaration
  | .effect => .Declaration
  | .multi_call => .Declaration
  | .normal_assign => .Declaration
  | .collect_assign => .Declaration
  | .if_stmt => .Declaration
  | .for_in_stmt => .Declaration
  | .for_stmt => .Declaration
  | .case_stmt => .Declaration
  | .matcher => .Match
  | .integer_const => .Expression
  | .real_const => .Expression
  | .string_const => .Expression
  | .char_const => .Expression
  | .undefined => .Expression
  | .no_expr => .Expression
  | .funcall => .Expression
  | .append => .Expression
  | .empty => .Expression
  | .class_value => .Expression
  | .module_value => .Expression
  | .signature_value => .Expression
  | .type_value => .Expression
  | .pattern_value => .Expression
  | .«repeat» => .Expression
  | .guarded => .Expression
  | .controlled => .Expression
  | .nil_Units => .Units
  | .list_Units => .Units
  | .append_Units => .Units
  | .nil_Declarations => .Declarations
  | .list_Declarations => .Declarations
  | .append_Declarations => .Declarations
  | .nil_Matches => .Matches
  | .list_Matches => .Matches
  | .append_Matches => .Matches
  | .nil_Types => .Types
  | .list_Types => .Types
  | .append_Types => .Types
  | .nil_Expressions => .Expressions
  | .list_Expressions => .Expressions
  | .append_Expressions => .Expressions
  | .nil_Patterns => .Patterns
  | .list_Patterns => .Patterns
  | .append_Patterns => .Patterns
  | .nil_Actuals => .Actuals
  | .list_Actuals => .Actuals
  | .append_Actuals => .Actuals
  | .nil_TypeActuals => .TypeActuals
  | .list_TypeActuals => .TypeActuals
  | .append_TypeActuals => .TypeActuals
  | .nil_PatternActuals => .PatternActuals
  | .list_PatternActuals => .PatternActuals
  | .append_PatternActuals => .PatternActuals

/-- The fields of a constructor, in order. -/
def fields : Con → List (Kind × Acc)
  | .program => [(.leaf .string, .program_name), (.ph .Units, .program_units)]
  | .no_unit => []
  | .with_unit => [(.leaf .string, .with_unit_name)]
  | .decl_unit => [(.ph .Declaration, .decl_unit_decl)]
  | .no_decl => []
  | .block => [(.ph .Declarations, .block_body)]
  | .class_decl => [(.ph .Def, .class_decl_def), (.ph .Declarations, .class_decl_type_formals), (.ph .Declaration, .class_decl_result_type), (.ph .Signature, .class_decl_parent), (.ph .Block, .class_decl_contents)]
  | .module_decl => [(.ph .Def, .module_decl_def), (.ph .Declarations, .module_decl_type_formals), (.ph .Declarations, .module_decl_value_formals), (.ph .Declaration, .module_decl_result_type), (.ph .Signature, .module_decl_parent), (.ph .Block, .module_decl_contents)]
  | .signature_decl => [(.ph .Def, .signature_decl_def), (.ph .Signature, .signature_decl_sig)]
  | .phylum_decl => [(.ph .Def, .phylum_decl_def), (.ph .Signature, .phylum_decl_sig), (.ph .Type, .phylum_decl_type)]
  | .type_decl => [(.ph .Def, .type_decl_def), (.ph .Signature, .type_decl_sig), (.ph .Type, .type_decl_type)]
  | .value_decl => [(.ph .Def, .value_decl_def), (.ph .Type, .value_decl_type), (.ph .Direction, .value_decl_direction), (.ph .Default, .value_decl_default)]
  | .attribute_decl => [(.ph .Def, .attribute_decl_def), (.ph .Type, .attribute_decl_type), (.ph .Direction, .attribute_decl_direction), (.ph .Default, .attribute_decl_default)]
  | .function_decl => [(.ph .Def, .function_decl_def), (.ph .Type, .function_decl_type), (.ph .Block, .function_decl_body)]
  | .procedure_decl => [(.ph .Def, .procedure_decl_def), (.ph .Type, .procedure_decl_type), (.ph .Block, .procedure_decl_body)]
  | .constructor_decl => [(.ph .Def, .constructor_decl_def), (.ph .Type, .constructor_decl_type)]
  | .pattern_decl => [(.ph .Def, .pattern_decl_def), (.ph .Type, .pattern_decl_type), (.ph .Pattern, .pattern_decl_choices)]
  | .inheritance => [(.ph .Def, .inheritance_def), (.ph .Type, .inheritance_used), (.ph .Block, .inheritance_body)]
  | .polymorphic => [(.ph .Def, .polymorphic_def), (.ph .Declarations, .polymorphic_type_formals), (.ph .Block, .polymorphic_body)]
  | .pragma_call => [(.leaf .symbol, .pragma_call_name), (.ph .Expressions, .pragma_call_parameters)]
  | .top_level_match => [(.ph .Match, .top_level_match_m)]
  | .class_replacement => [(.ph .Class, .class_replacement_class), (.ph .Class, .class_replacement_as)]
  | .module_replacement => [(.ph .Module, .module_replacement_module), (.ph .Module, .module_replacement_as)]
  | .signature_replacement => [(.ph .Signature, .signature_replacement_sig), (.ph .Signature, .signature_replacement_as)]
  | .type_replacement => [(.ph .Type, .type_replacement_type), (.ph .Type, .type_replacement_as)]
  | .value_replacement => [(.ph .Expression, .value_replacement_value), (.ph .Expression, .value_replacement_as)]
  | .pattern_replacement => [(.ph .Pattern, .pattern_replacement_pattern), (.ph .Pattern, .pattern_replacement_as)]
  | .class_renaming => [(.ph .Def, .class_renaming_def), (.ph .Class, .class_renaming_old)]
  | .module_renaming => [(.ph .Def, .module_renaming_def), (.ph .Module, .module_renaming_old)]
  | .signature_renaming => [(.ph .Def, .signature_renaming_def), (.ph .Signature, .signature_renaming_old)]
  | .type_renaming => [(.ph .Def, .type_renaming_def), (.ph .Type, .type_renaming_old)]
  | .value_renaming => [(.ph .Def, .value_renaming_def), (.ph .Expression, .value_renaming_old)]
  | .pattern_renaming => [(.ph .Def, .pattern_renaming_def), (.ph .Pattern, .pattern_renaming_old)]
  | .direction => [(.leaf .boolean, .direction_is_input), (.leaf .boolean, .direction_is_collection), (.leaf .boolean, .direction_is_circular)]
  | .simple => [(.ph .Expression, .simple_value)]
  | .composite => [(.ph .Expression, .composite_initial), (.ph .Expression, .composite_combiner)]
  | .no_default => []
  | .normal_formal => [(.ph .Def, .normal_formal_def), (.ph .Type, .normal_formal_type)]
  | .seq_formal => [(.ph .Def, .seq_formal_def), (.ph .Type, .seq_formal_type)]
  | .type_formal => [(.ph .Def, .type_formal_def), (.ph .Signature, .type_formal_sig)]
  | .phylum_formal => [(.ph .Def, .phylum_formal_def), (.ph .Signature, .phylum_formal_sig)]
  | .«def» => [(.leaf .symbol, .def_name), (.leaf .boolean, .def_is_constant), (.leaf .boolean, .def_is_public)]
  | .use => [(.leaf .symbol, .use_name)]
  | .qual_use => [(.ph .Type, .qual_use_from), (.leaf .symbol, .qual_use_name)]
  | .class_use => [(.ph .Use, .class_use_use)]
  | .module_use => [(.ph .Use, .module_use_use)]
  | .type_use => [(.ph .Use, .type_use_use)]
  | .type_inst => [(.ph .Module, .type_inst_module), (.ph .TypeActuals, .type_inst_type_actuals), (.ph .Actuals, .type_inst_actuals)]
  | .no_type => []
  | .value_use => [(.ph .Use, .value_use_use)]
  | .typed_value => [(.ph .Expression, .typed_value_expr), (.ph .Type, .typed_value_type)]
  | .sig_use => [(.ph .Use, .sig_use_use)]
  | .sig_inst => [(.leaf .boolean, .sig_inst_is_input), (.leaf .boolean, .sig_inst_is_var), (.ph .Class, .sig_inst_class), (.ph .TypeActuals, .sig_inst_actuals)]
  | .no_sig => []
  | .pattern_use => [(.ph .Use, .pattern_use_use)]
  | .no_pattern => []
  | .typed_pattern => [(.ph .Pattern, .typed_pattern_pat), (.ph .Type, .typed_pattern_type)]
  | .fixed_sig => [(.ph .Types, .fixed_sig_types)]
  | .mult_sig => [(.ph .Signature, .mult_sig_sig1), (.ph .Signature, .mult_sig_sig2)]
  | .remote_type => [(.ph .Type, .remote_type_nodetype)]
  | .function_type => [(.ph .Declarations, .function_type_formals), (.ph .Declarations, .function_type_return_values)]
  | .private_type => [(.ph .Type, .private_type_rep)]
  | .match_pattern => [(.ph .Pattern, .match_pattern_pat), (.ph .Type, .match_pattern_type)]
  | .pattern_call => [(.ph .Pattern, .pattern_call_func), (.ph .PatternActuals, .pattern_call_actuals)]
  | .pattern_actual => [(.ph .Pattern, .pattern_actual_arg), (.ph .Expression, .pattern_actual_formal)]
  | .rest_pattern => [(.ph .Pattern, .rest_pattern_constraint)]
  | .choice_pattern => [(.ph .Patterns, .choice_pattern_choices)]
  | .and_pattern => [(.ph .Pattern, .and_pattern_p1), (.ph .Pattern, .and_pattern_p2)]
  | .pattern_var => [(.ph .Declaration, .pattern_var_formal)]
  | .condition => [(.ph .Expression, .condition_e)]
  | .hole => []
  | .pattern_function => [(.ph .Declarations, .pattern_function_formals), (.ph .Pattern, .pattern_function_body)]
  | .block_stmt => [(.ph .Block, .block_stmt_body)]
  | .effect => [(.ph .Expression, .effect_e)]
  | .multi_call => [(.ph .Expression, .multi_call_proc), (.ph .Actuals, .multi_call_actuals), (.ph .Actuals, .multi_call_results)]
  | .normal_assign => [(.ph .Expression, .normal_assign_lhs), (.ph .Expression, .normal_assign_rhs)]
  | .collect_assign => [(.ph .Expression, .collect_assign_lhs), (.ph .Expression, .collect_assign_rhs)]
  | .if_stmt => [(.ph .Expression, .if_stmt_cond), (.ph .Block, .if_stmt_if_true), (.ph .Block, .if_stmt_if_false)]
  | .for_in_stmt => [(.ph .Declaration, .for_in_stmt_formal), (.ph .Expression, .for_in_stmt_seq), (.ph .Block, .for_in_stmt_body)]
  | .for_stmt => [(.ph .Expression, .for_stmt_expr), (.ph .Matches, .for_stmt_matchers)]
  | .case_stmt => [(.ph .Expression, .case_stmt_expr), (.ph .Matches, .case_stmt_matchers), (.ph .Block, .case_stmt_default)]
  | .matcher => [(.ph .Pattern, .matcher_pat), (.ph .Block, .matcher_body)]
  | .integer_const => [(.leaf .string, .integer_const_token)]
  | .real_const => [(.leaf .string, .real_const_token)]
  | .string_const => [(.leaf .string, .string_const_token)]
  | .char_const => [(.leaf .string, .char_const_token)]
  | .undefined => []
  | .no_expr => []
  | .funcall => [(.ph .Expression, .funcall_f), (.ph .Actuals, .funcall_actuals)]
  | .append => [(.ph .Expression, .append_s1), (.ph .Expression, .append_s2)]
  | .empty => []
  | .class_value => [(.ph .Class, .class_value_c)]
  | .module_value => [(.ph .Module, .module_value_m)]
  | .signature_value => [(.ph .Signature, .signature_value_s)]
  | .type_value => [(.ph .Type, .type_value_t)]
  | .pattern_value => [(.ph .Pattern, .pattern_value_p)]
  | .«repeat» => [(.ph .Expression, .repeat_expr)]
  | .guarded => [(.ph .Expression, .guarded_expr), (.ph .Expression, .guarded_cond)]
  | .controlled => [(.ph .Expression, .controlled_expr), (.ph .Declaration, .controlled_formal), (.ph .Expression, .controlled_set)]
  | .nil_Units => []
  | .list_Units => [(.ph .Unit, .list_Units_elem)]
  | .append_Units => [(.ph .Units, .append_Units_l1), (.ph .Units, .append_Units_l2)]
  | .nil_Declarations => []
  | .list_Declarations => [(.ph .Declaration, .list_Declarations_elem)]
  | .append_Declarations => [(.ph .Declarations, .append_Declarations_l1), (.ph .Declarations, .append_Declarations_l2)]
  | .nil_Matches => []
  | .list_Matches => [(.ph .Match, .list_Matches_elem)]
  | .append_Matches => [(.ph .Matches, .append_Matches_l1), (.ph .Matches, .append_Matches_l2)]
  | .nil_Types => []
  | .list_Types => [(.ph .Type, .list_Types_elem)]
  | .append_Types => [(.ph .Types, .append_Types_l1), (.ph .Types, .append_Types_l2)]
  | .nil_Expressions => []
  | .list_Expressions => [(.ph .Expression, .list_Expressions_elem)]
  | .append_Expressions => [(.ph .Expressions, .append_Expressions_l1), (.ph .Expressions, .append_Expressions_l2)]
  | .nil_Patterns => []
  | .list_Patterns => [(.ph .Pattern, .list_Patterns_elem)]
  | .append_Patterns => [(.ph .Patterns, .append_Patterns_l1), (.ph .Patterns, .append_Patterns_l2)]
  | .nil_Actuals => []
  | .list_Actuals => [(.ph .Expression, .list_Actuals_elem)]
  | .append_Actuals => [(.ph .Actuals, .append_Actuals_l1), (.ph .Actuals, .append_Actuals_l2)]
  | .nil_TypeActuals => []
  | .list_TypeActuals => [(.ph .Type, .list_TypeActuals_elem)]
  | .append_TypeActuals => [(.ph .TypeActuals, .append_TypeActuals_l1), (.ph .TypeActuals, .append_TypeActuals_l2)]
  | .nil_PatternActuals => []
  | .list_PatternActuals => [(.ph .Pattern, .list_PatternActuals_elem)]
  | .append_PatternActuals => [(.ph .PatternActuals, .append_PatternActuals_l1), (.ph .PatternActuals, .append_PatternActuals_l2)]

/-- The name of a constructor. -/
def name : Con → List Char
  | .program => "program".toList
  | .no_unit => "no_unit".toList
  | .with_unit => "with_unit".toList
  | .decl_unit => "decl_unit".toList
  | .no_decl => "no_decl".toList
  | .block => "block".toList
  | .class_decl => "class_decl".toList
  | .module_decl => "module_decl".toList
  | .signature_decl => "signature_decl".toList
  | .phylum_decl => "phylum_decl".toList
  | .type_decl => "type_decl".toList
  | .value_decl => "value_decl".toList
  | .attribute_decl => "attribute_decl".toList
  | .function_decl => "function_decl".toList
  | .procedure_decl => "procedure_decl".toList
  | .constructor_decl => "constructor_decl".toList
  | .pattern_decl => "pattern_decl".toList
  | .inheritance => "inheritance".toList
  | .polymorphic => "polymorphic".toList
  | .pragma_call => "pragma_call".toList
  | .top_level_match => "top_level_match".toList
  | .class_replacement => "class_replacement".toList
  | .module_replacement => "module_replacement".toList
  | .signature_replacement => "signature_replacement".toList
  | .type_replacement => "type_replacement".toList
  | .value_replacement => "value_replacement".toList
  | .pattern_replacement => "pattern_replacement".toList
  | .class_renaming => "class_renaming".toList
  | .module_renaming => "module_renaming".toList
  | .signature_renaming => "signature_renaming".toList
  | .type_renaming => "type_renaming".toList
  | .value_renaming => "value_renaming".toList
  | .pattern_renaming => "pattern_renaming".toList
  | .direction => "direction".toList
  | .simple => "simple".toList
  | .composite => "composite".toList
  | .no_default => "no_default".toList
  | .normal_formal => "normal_formal".toList
  | .seq_formal => "seq_formal".toList
  | .type_formal => "type_formal".toList
  | .phylum_formal => "phylum_formal".toList
  | .«def» => "def".toList
  | .use => "use".toList
  | .qual_use => "qual_use".toList
  | .class_use => "class_use".toList
  | .module_use => "module_use".toList
  | .type_use => "type_use".toList
  | .type_inst => "type_inst".toList
  | .no_type => "no_type".toList
  | .value_use => "value_use".toList
  | .typed_value => "typed_value".toList
  | .sig_use => "sig_use".toList
  | .sig_inst => "sig_inst".toList
  | .no_sig => "no_sig".toList
  | .pattern_use => "pattern_use".toList
  | .no_pattern => "no_pattern".toList
  | .typed_pattern => "typed_pattern".toList
  | .fixed_sig => "fixed_sig".toList
  | .mult_sig => "mult_sig".toList
  | .remote_type => "remote_type".toList
  | .function_type => "function_type".toList
  | .private_type => "private_type".toList
  | .match_pattern => "match_pattern".toList
  | .pattern_call => "pattern_call".toList
  | .pattern_actual => "pattern_actual".toList
  | .rest_pattern => "rest_pattern".toList
  | .choice_pattern => "choice_pattern".toList
  | .and_pattern => "and_pattern".toList
  | .pattern_var => "pattern_var".toList
  | .condition => "condition".toList
  | .hole => "hole".toList
  | .pattern_function => "pattern_function".toList
  | .block_stmt => "block_stmt".toList
  | .effect => "effect".toList
  | .multi_call => "multi_call".toList
  | .normal_assign => "normal_assign".toList
  | .collect_assign => "collect_assign".toList
  | .if_stmt => "if_stmt".toList
  | .for_in_stmt => "for_in_stmt".toList
  | .for_stmt => "for_stmt".toList
  | .case_stmt => "case_stmt".toList
  | .matcher => "matcher".toList
  | .integer_const => "integer_const".toList
  | .real_const => "real_const".toList
  | .string_const => "string_const".toList
  | .char_const => "char_const".toList
  | .undefined => "undefined".toList
  | .no_expr => "no_expr".toList
  | .funcall => "funcall".toList
  | .append => "append".toList
  | .empty => "empty".toList
  | .class_value => "class_value".toList
  | .module_value => "module_value".toList
  | .signature_value => "signature_value".toList
  | .type_value => "type_value".toList
  | .pattern_value => "pattern_value".toList
  | .«repeat» => "repeat".toList
  | .guarded => "guarded".toList
  | .controlled => "controlled".toList
  | .nil_Units => "nil_Units".toList
  | .list_Units => "list_Units".toList
  | .append_Units => "append_Units".toList
  | .nil_Declarations => "nil_Declarations".toList
  | .list_Declarations => "list_Declarations".toList
  | .append_Declarations => "append_Declarations".toList
  | .nil_Matches => "nil_Matches".toList
  | .list_Matches => "list_Matches".toList
  | .append_Matches => "append_Matches".toList
  | .nil_Types => "nil_Types".toList
  | .list_Types => "list_Types".toList
  | .append_Types => "append_Types".toList
  | .nil_Expressions => "nil_Expressions".toList
  | .list_Expressions => "list_Expressions".toList
  | .append_Expressions => "append_Expressions".toList
  | .nil_Patterns => "nil_Patterns".toList
  | .list_Patterns => "list_Patterns".toList
  | .append_Patterns => "append_Patterns".toList
  | .nil_Actuals => "nil_Actuals".toList
  | .list_Actuals => "list_Actuals".toList
  | .append_Actuals => "append_Actuals".toList
  | .nil_TypeActuals => "nil_TypeActuals".toList
  | .list_TypeActuals => "list_TypeActuals".toList
  | .append_TypeActuals => "append_TypeActuals".toList
  | .nil_PatternActuals => "nil_PatternActuals".toList
  | .list_PatternActuals => "list_PatternActuals".toList
  | .append_PatternActuals => "append_PatternActuals".toList

end Con
end Aps.Ast

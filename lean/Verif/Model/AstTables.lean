import Verif.Spec.AstGrammar

/-!
# The tables of the abstract syntax tree code

Extracted by `tools/gen_ast.py` from parse/aps-tree.c, parse/aps-traverse.c and
parse/aps-tree-dump.c; the script consumes every line of those files.  Each function below is one
family of `switch` statements, with the cases in the order of the source.
-/
namespace Aps.Ast


/-- `X_KEY` (aps-tree.c, from line 171): the cases `case N: return KEYc;` of phylum `X`. -/
def keyTable : Phylum → List (Nat × Con)
  | .Signature => [(10201, .sig_use), (10302, .sig_inst), (10403, .no_sig), (10908, .mult_sig), (10807, .fixed_sig)]
  | .Type => [(9595, .type_use), (9696, .type_inst), (9797, .no_type), (11009, .remote_type), (11312, .private_type), (11110, .function_type)]
  | .Expression => [(9898, .value_use), (10100, .typed_value), (13736, .integer_const), (13837, .real_const), (13938, .string_const), (14039, .char_const), (14140, .undefined), (14241, .no_expr), (14342, .funcall), (14443, .append), (14544, .empty), (14645, .class_value), (14746, .module_value), (14847, .signature_value), (14948, .type_value), (15049, .pattern_value), (15150, .«repeat»), (15352, .controlled), (15251, .guarded)]
  | .Pattern => [(10504, .pattern_use), (10605, .no_pattern), (10706, .typed_pattern), (11413, .match_pattern), (11514, .pattern_call), (11615, .pattern_actual), (11716, .rest_pattern), (11817, .choice_pattern), (11918, .and_pattern), (12019, .pattern_var), (12120, .condition), (12322, .pattern_function), (12221, .hole)]
  | .Module => [(9494, .module_use)]
  | .Class => [(9393, .class_use)]
  | .Def => [(8383, .«def»)]
  | .Use => [(8585, .qual_use), (8484, .use)]
  | .Program => [(3737, .program)]
  | .Unit => [(3838, .no_unit), (4040, .decl_unit), (3939, .with_unit)]
  | .Declaration => [(4141, .no_decl), (4343, .class_decl), (4444, .module_decl), (4545, .signature_decl), (4646, .phylum_decl), (4747, .type_decl), (4848, .value_decl), (4949, .attribute_decl), (5050, .function_decl), (5151, .procedure_decl), (5252, .constructor_decl), (5353, .pattern_decl), (5454, .inheritance), (5555, .polymorphic), (5656, .pragma_call), (5757, .top_level_match), (5858, .class_replacement), (5959, .module_replacement), (6060, .signature_replacement), (6161, .type_replacement), (6262, .value_replacement), (6363, .pattern_replacement), (6464, .class_renaming), (6565, .module_renaming), (6666, .signature_renaming), (6767, .type_renaming), (6868, .value_renaming), (6969, .pattern_renaming), (7777, .normal_formal), (7878, .seq_formal), (8080, .type_formal), (8181, .phylum_formal), (12423, .block_stmt), (12524, .effect), (12625, .multi_call), (12928, .normal_assign), (13029, .collect_assign), (13231, .if_stmt), (13332, .for_in_stmt), (13534, .case_stmt), (13433, .for_stmt)]
  | .Block => [(4242, .block)]
  | .Match => [(13635, .matcher)]
  | .Direction => [(7373, .direction)]
  | .Default => [(7474, .simple), (7676, .no_default), (7575, .composite)]
  | .Units => [(2626, .nil_Units), (2627, .list_Units), (2628, .append_Units)]
  | .Declarations => [(2727, .nil_Declarations), (2728, .list_Declarations), (2729, .append_Declarations)]
  | .Matches => [(2828, .nil_Matches), (2829, .list_Matches), (2830, .append_Matches)]
  | .Types => [(2929, .nil_Types), (2930, .list_Types), (2931, .append_Types)]
  | .Expressions => [(3030, .nil_Expressions), (3031, .list_Expressions), (3032, .append_Expressions)]
  | .Patterns => [(3131, .nil_Patterns), (3132, .list_Patterns), (3133, .append_Patterns)]
  | .Actuals => [(3232, .nil_Actuals), (3233, .list_Actuals), (3234, .append_Actuals)]
  | .TypeActuals => [(3333, .nil_TypeActuals), (3334, .list_TypeActuals), (3335, .append_TypeActuals)]
  | .PatternActuals => [(3434, .nil_PatternActuals), (3435, .list_PatternActuals), (3436, .append_PatternActuals)]

/-- `ABSTRACT_APS_tnode_phylum` (aps-tree.c:11-170): the cases of the switch. -/
def phylumTable : List (Nat × Phylum) :=
  [(10201, .Signature),
   (10302, .Signature),
   (10403, .Signature),
   (10807, .Signature),
   (10908, .Signature),
   (9595, .Type),
   (9696, .Type),
   (9797, .Type),
   (11009, .Type),
   (11110, .Type),
   (11312, .Type),
   (9898, .Expression),
   (10100, .Expression),
   (13736, .Expression),
   (13837, .Expression),
   (13938, .Expression),
   (14039, .Expression),
   (14140, .Expression),
   (14241, .Expression),
   (14342, .Expression),
   (14443, .Expression),
   (14544, .Expression),
   (14645, .Expression),
   (14746, .Expression),
   (14847, .Expression),
   (14948, .Expression),
   (15049, .Expression),
   (15150, .Expression),
   (15251, .Expression),
   (15352, .Expression),
   (10504, .Pattern),
   (10605, .Pattern),
   (10706, .Pattern),
   (11413, .Pattern),
   (11514, .Pattern),
   (11615, .Pattern),
   (11716, .Pattern),
   (11817, .Pattern),
   (11918, .Pattern),
   (12019, .Pattern),
   (12120, .Pattern),
   (12221, .Pattern),
   (12322, .Pattern),
   (9494, .Module),
   (9393, .Class),
   (8383, .Def),
   (8484, .Use),
   (8585, .Use),
   (3737, .Program),
   (3838, .Unit),
   (3939, .Unit),
   (4040, .Unit),
   (4141, .Declaration),
   (4343, .Declaration),
   (4444, .Declaration),
   (4545, .Declaration),
   (4646, .Declaration),
   (4747, .Declaration),
   (4848, .Declaration),
   (4949, .Declaration),
   (5050, .Declaration),
   (5151, .Declaration),
   (5252, .Declaration),
   (5353, .Declaration),
   (5454, .Declaration),
   (5555, .Declaration),
   (5656, .Declaration),
   (5757, .Declaration),
   (5858, .Declaration),
   (5959, .Declaration),
   (6060, .Declaration),
   (6161, .Declaration),
   (6262, .Declaration),
   (6363, .Declaration),
   (6464, .Declaration),
   (6565, .Declaration),
   (6666, .Declaration),
   (6767, .Declaration),
   (6868, .Declaration),
   (6969, .Declaration),
   (7777, .Declaration),
   (7878, .Declaration),
   (8080, .Declaration),
   (8181, .Declaration),
   (12423, .Declaration),
   (12524, .Declaration),
   (12625, .Declaration),
   (12928, .Declaration),
   (13029, .Declaration),
   (13231, .Declaration),
   (13332, .Declaration),
   (13433, .Declaration),
   (13534, .Declaration),
   (4242, .Block),
   (13635, .Match),
   (7373, .Direction),
   (7474, .Default),
   (7575, .Default),
   (7676, .Default),
   (2626, .Units),
   (2627, .Units),
   (2628, .Units),
   (2727, .Declarations),
   (2728, .Declarations),
   (2729, .Declarations),
   (2828, .Matches),
   (2829, .Matches),
   (2830, .Matches),
   (2929, .Types),
   (2930, .Types),
   (2931, .Types),
   (3030, .Expressions),
   (3031, .Expressions),
   (3032, .Expressions),
   (3131, .Patterns),
   (3132, .Patterns),
   (3133, .Patterns),
   (3232, .Actuals),
   (3233, .Actuals),
   (3234, .Actuals),
   (3333, .TypeActuals),
   (3334, .TypeActuals),
   (3335, .TypeActuals),
   (3434, .PatternActuals),
   (3435, .PatternActuals),
   (3436, .PatternActuals)]

/-- The accessor functions (aps-tree.c, from line 1124): the phylum whose `_KEY` is called, the key it
is compared with, and the index of the child returned. -/
def accTable : Acc → Phylum × Con × Nat
  | .list_Units_elem => (.Units, .list_Units, 0)
  | .append_Units_l1 => (.Units, .append_Units, 0)
  | .append_Units_l2 => (.Units, .append_Units, 1)
  | .list_Declarations_elem => (.Declarations, .list_Declarations, 0)
  | .append_Declarations_l1 => (.Declarations, .append_Declarations, 0)
  | .append_Declarations_l2 => (.Declarations, .append_Declarations, 1)
  | .list_Matches_elem => (.Matches, .list_Matches, 0)
  | .append_Matches_l1 => (.Matches, .append_Matches, 0)
  | .append_Matches_l2 => (.Matches, .append_Matches, 1)
  | .list_Types_elem => (.Types, .list_Types, 0)
  | .append_Types_l1 => (.Types, .append_Types, 0)
  | .append_Types_l2 => (.Types, .append_Types, 1)
  | .list_Expressions_elem => (.Expressions, .list_Expressions, 0)
  | .append_Expressions_l1 => (.Expressions, .append_Expressions, 0)
  | .append_Expressions_l2 => (.Expressions, .append_Expressions, 1)
  | .list_Patterns_elem => (.Patterns, .list_Patterns, 0)
  | .append_Patterns_l1 => (.Patterns, .append_Patterns, 0)
  | .append_Patterns_l2 => (.Patterns, .append_Patterns, 1)
  | .list_Actuals_elem => (.Actuals, .list_Actuals, 0)
  | .append_Actuals_l1 => (.Actuals, .append_Actuals, 0)
  | .append_Actuals_l2 => (.Actuals, .append_Actuals, 1)
  | .list_TypeActuals_elem => (.TypeActuals, .list_TypeActuals, 0)
  | .append_TypeActuals_l1 => (.TypeActuals, .append_TypeActuals, 0)
  | .append_TypeActuals_l2 => (.TypeActuals, .append_TypeActuals, 1)
  | .list_PatternActuals_elem => (.PatternActuals, .list_PatternActuals, 0)
  | .append_PatternActuals_l1 => (.PatternActuals, .append_PatternActuals, 0)
  | .append_PatternActuals_l2 => (.PatternActuals, .append_PatternActuals, 1)
  | .program_name => (.Program, .program, 0)
  | .program_units => (.Program, .program, 1)
  | .with_unit_name => (.Unit, .with_unit, 0)
  | .decl_unit_decl => (.Unit, .decl_unit, 0)
  | .block_body => (.Block, .block, 0)
  | .class_decl_def => (.Declaration, .class_decl, 0)
  | .class_decl_type_formals => (.Declaration, .class_decl, 1)
  | .class_decl_result_type => (.Declaration, .class_decl, 2)
  | .class_decl_parent => (.Declaration, .class_decl, 3)
  | .class_decl_contents => (.Declaration, .class_decl, 4)
  | .module_decl_def => (.Declaration, .module_decl, 0)
  | .module_decl_type_formals => (.Declaration, .module_decl, 1)
  | .module_decl_value_formals => (.Declaration, .module_decl, 2)
  | .module_decl_result_type => (.Declaration, .module_decl, 3)
  | .module_decl_parent => (.Declaration, .module_decl, 4)
  | .module_decl_contents => (.Declaration, .module_decl, 5)
  | .signature_decl_def => (.Declaration, .signature_decl, 0)
  | .signature_decl_sig => (.Declaration, .signature_decl, 1)
  | .phylum_decl_def => (.Declaration, .phylum_decl, 0)
  | .phylum_decl_sig => (.Declaration, .phylum_decl, 1)
  | .phylum_decl_type => (.Declaration, .phylum_decl, 2)
  | .type_decl_def => (.Declaration, .type_decl, 0)
  | .type_decl_sig => (.Declaration, .type_decl, 1)
  | .type_decl_type => (.Declaration, .type_decl, 2)
  | .value_decl_def => (.Declaration, .value_decl, 0)
  | .value_decl_type => (.Declaration, .value_decl, 1)
  | .value_decl_direction => (.Declaration, .value_decl, 2)
  | .value_decl_default => (.Declaration, .value_decl, 3)
  | .attribute_decl_def => (.Declaration, .attribute_decl, 0)
  | .attribute_decl_type => (.Declaration, .attribute_decl, 1)
  | .attribute_decl_direction => (.Declaration, .attribute_decl, 2)
  | .attribute_decl_default => (.Declaration, .attribute_decl, 3)
  | .function_decl_def => (.Declaration, .function_decl, 0)
  | .function_decl_type => (.Declaration, .function_decl, 1)
  | .function_decl_body => (.Declaration, .function_decl, 2)
  | .procedure_decl_def => (.Declaration, .procedure_decl, 0)
  | .procedure_decl_type => (.Declaration, .procedure_decl, 1)
  | .procedure_decl_body => (.Declaration, .procedure_decl, 2)
  | .constructor_decl_def => (.Declaration, .constructor_decl, 0)
  | .constructor_decl_type => (.Declaration, .constructor_decl, 1)
  | .pattern_decl_def => (.Declaration, .pattern_decl, 0)
  | .pattern_decl_type => (.Declaration, .pattern_decl, 1)
  | .pattern_decl_choices => (.Declaration, .pattern_decl, 2)
  | .inheritance_def => (.Declaration, .inheritance, 0)
  | .inheritance_used => (.Declaration, .inheritance, 1)
  | .inheritance_body => (.Declaration, .inheritance, 2)
  | .polymorphic_def => (.Declaration, .polymorphic, 0)
  | .polymorphic_type_formals => (.Declaration, .polymorphic, 1)
  | .polymorphic_body => (.Declaration, .polymorphic, 2)
  | .pragma_call_name => (.Declaration, .pragma_call, 0)
  | .pragma_call_parameters => (.Declaration, .pragma_call, 1)
  | .top_level_match_m => (.Declaration, .top_level_match, 0)
  | .class_replacement_class => (.Declaration, .class_replacement, 0)
  | .class_replacement_as => (.Declaration, .class_replacement, 1)
  | .module_replacement_module => (.Declaration, .module_replacement, 0)
  | .module_replacement_as => (.Declaration, .module_replacement, 1)
  | .signature_replacement_sig => (.Declaration, .signature_replacement, 0)
  | .signature_replacement_as => (.Declaration, .signature_replacement, 1)
  | .type_replacement_type => (.Declaration, .type_replacement, 0)
  | .type_replacement_as => (.Declaration, .type_replacement, 1)
  | .value_replacement_value => (.Declaration, .value_replacement, 0)
  | .value_replacement_as => (.Declaration, .value_replacement, 1)
  | .pattern_replacement_pattern => (.Declaration, .pattern_replacement, 0)
  | .pattern_replacement_as => (.Declaration, .pattern_replacement, 1)
  | .class_renaming_def => (.Declaration, .class_renaming, 0)
  | .class_renaming_old => (.Declaration, .class_renaming, 1)
  | .module_renaming_def => (.Declaration, .module_renaming, 0)
  | .module_renaming_old => (.Declaration, .module_renaming, 1)
  | .signature_renaming_def => (.Declaration, .signature_renaming, 0)
  | .signature_renaming_old => (.Declaration, .signature_renaming, 1)
  | .type_renaming_def => (.Declaration, .type_renaming, 0)
  | .type_renaming_old => (.Declaration, .type_renaming, 1)
  | .value_renaming_def => (.Declaration, .value_renaming, 0)
  | .value_renaming_old => (.Declaration, .value_renaming, 1)
  | .pattern_renaming_def => (.Declaration, .pattern_renaming, 0)
  | .pattern_renaming_old => (.Declaration, .pattern_renaming, 1)
  | .direction_is_input => (.Direction, .direction, 0)
  | .direction_is_collection => (.Direction, .direction, 1)
  | .direction_is_circular => (.Direction, .direction, 2)
  | .simple_value => (.Default, .simple, 0)
  | .composite_initial => (.Default, .composite, 0)
  | .composite_combiner => (.Default, .composite, 1)
  | .normal_formal_def => (.Declaration, .normal_formal, 0)
  | .normal_formal_type => (.Declaration, .normal_formal, 1)
  | .seq_formal_def => (.Declaration, .seq_formal, 0)
  | .seq_formal_type => (.Declaration, .seq_formal, 1)
  | .type_formal_def => (.Declaration, .type_formal, 0)
  | .type_formal_sig => (.Declaration, .type_formal, 1)
  | .phylum_formal_def => (.Declaration, .phylum_formal, 0)
  | .phylum_formal_sig => (.Declaration, .phylum_formal, 1)
  | .def_name => (.Def, .«def», 0)
  | .def_is_constant => (.Def, .«def», 1)
  | .def_is_public => (.Def, .«def», 2)
  | .use_name => (.Use, .use, 0)
  | .qual_use_from => (.Use, .qual_use, 0)
  | .qual_use_name => (.Use, .qual_use, 1)
  | .class_use_use => (.Class, .class_use, 0)
  | .module_use_use => (.Module, .module_use, 0)
  | .type_use_use => (.Type, .type_use, 0)
  | .type_inst_module => (.Type, .type_inst, 0)
  | .type_inst_type_actuals => (.Type, .type_inst, 1)
  | .type_inst_actuals => (.Type, .type_inst, 2)
  | .value_use_use => (.Expression, .value_use, 0)
  | .typed_value_expr => (.Expression, .typed_value, 0)
  | .typed_value_type => (.Expression, .typed_value, 1)
  | .sig_use_use => (.Signature, .sig_use, 0)
  | .sig_inst_is_input => (.Signature, .sig_inst, 0)
  | .sig_inst_is_var => (.Signature, .sig_inst, 1)
  | .sig_inst_class => (.Signature, .sig_inst, 2)
  | .sig_inst_actuals => (.Signature, .sig_inst, 3)
  | .pattern_use_use => (.Pattern, .pattern_use, 0)
  | .typed_pattern_pat => (.Pattern, .typed_pattern, 0)
  | .typed_pattern_type => (.Pattern, .typed_pattern, 1)
  | .fixed_sig_types => (.Signature, .fixed_sig, 0)
  | .mult_sig_sig1 => (.Signature, .mult_sig, 0)
  | .mult_sig_sig2 => (.Signature, .mult_sig, 1)
  | .remote_type_nodetype => (.Type, .remote_type, 0)
  | .function_type_formals => (.Type, .function_type, 0)
  | .function_type_return_values => (.Type, .function_type, 1)
  | .private_type_rep => (.Type, .private_type, 0)
  | .match_pattern_pat => (.Pattern, .match_pattern, 0)
  | .match_pattern_type => (.Pattern, .match_pattern, 1)
  | .pattern_call_func => (.Pattern, .pattern_call, 0)
  | .pattern_call_actuals => (.Pattern, .pattern_call, 1)
  | .pattern_actual_arg => (.Pattern, .pattern_actual, 0)
  | .pattern_actual_formal => (.Pattern, .pattern_actual, 1)
  | .rest_pattern_constraint => (.Pattern, .rest_pattern, 0)
  | .choice_pattern_choices => (.Pattern, .choice_pattern, 0)
  | .and_pattern_p1 => (.Pattern, .and_pattern, 0)
  | .and_pattern_p2 => (.Pattern, .and_pattern, 1)
  | .pattern_var_formal => (.Pattern, .pattern_var, 0)
  | .condition_e => (.Pattern, .condition, 0)
  | .pattern_function_formals => (.Pattern, .pattern_function, 0)
  | .pattern_function_body => (.Pattern, .pattern_function, 1)
  | .block_stmt_body => (.Declaration, .block_stmt, 0)
  | .effect_e => (.Declaration, .effect, 0)
  | .multi_call_proc => (.Declaration, .multi_call, 0)
  | .multi_call_actuals => (.Declaration, .multi_call, 1)
  | .multi_call_results => (.Declaration, .multi_call, 2)
  | .normal_assign_lhs => (.Declaration, .normal_assign, 0)
  | .normal_assign_rhs => (.Declaration, .normal_assign, 1)
  | .collect_assign_lhs => (.Declaration, .collect_assign, 0)
  | .collect_assign_rhs => (.Declaration, .collect_assign, 1)
  | .if_stmt_cond => (.Declaration, .if_stmt, 0)
  | .if_stmt_if_true => (.Declaration, .if_stmt, 1)
  | .if_stmt_if_false => (.Declaration, .if_stmt, 2)
  | .for_in_stmt_formal => (.Declaration, .for_in_stmt, 0)
  | .for_in_stmt_seq => (.Declaration, .for_in_stmt, 1)
  | .for_in_stmt_body => (.Declaration, .for_in_stmt, 2)
  | .for_stmt_expr => (.Declaration, .for_stmt, 0)
  | .for_stmt_matchers => (.Declaration, .for_stmt, 1)
  | .case_stmt_expr => (.Declaration, .case_stmt, 0)
  | .case_stmt_matchers => (.Declaration, .case_stmt, 1)
  | .case_stmt_default => (.Declaration, .case_stmt, 2)
  | .matcher_pat => (.Match, .matcher, 0)
  | .matcher_body => (.Match, .matcher, 1)
  | .integer_const_token => (.Expression, .integer_const, 0)
  | .real_const_token => (.Expression, .real_const, 0)
  | .string_const_token => (.Expression, .string_const, 0)
  | .char_const_token => (.Expression, .char_const, 0)
  | .funcall_f => (.Expression, .funcall, 0)
  | .funcall_actuals => (.Expression, .funcall, 1)
  | .append_s1 => (.Expression, .append, 0)
  | .append_s2 => (.Expression, .append, 1)
  | .class_value_c => (.Expression, .class_value, 0)
  | .module_value_m => (.Expression, .module_value, 0)
  | .signature_value_s => (.Expression, .signature_value, 0)
  | .type_value_t => (.Expression, .type_value, 0)
  | .pattern_value_p => (.Expression, .pattern_value, 0)
  | .repeat_expr => (.Expression, .«repeat», 0)
  | .guarded_expr => (.Expression, .guarded, 0)
  | .guarded_cond => (.Expression, .guarded, 1)
  | .controlled_expr => (.Expression, .controlled, 0)
  | .controlled_formal => (.Expression, .controlled, 1)
  | .controlled_set => (.Expression, .controlled, 2)

/-- The constructor functions (aps-tree.c, from line 1111): first argument of `create_tnode`. -/
def opNum : Con → Nat
  | .program => 3737
  | .no_unit => 3838
  | .with_unit => 3939
  | .decl_unit => 4040
  | .no_decl => 4141
  | .block => 4242
  | .class_decl => 4343
  | .module_decl => 4444
  | .signature_decl => 4545
  | .phylum_decl => 4646
  | .type_decl => 4747
  | .value_decl => 4848
  | .attribute_decl => 4949
  | .function_decl => 5050
  | .procedure_decl => 5151
  | .constructor_decl => 5252
  | .pattern_decl => 5353
  | .inheritance => 5454
  | .polymorphic => 5555
  | .pragma_call => 5656
  | .top_level_match => 5757
  | .class_replacement => 5858
  | .module_replacement => 5959
  | .signature_replacement => 6060
  | .type_replacement => 6161
  | .value_replacement => 6262
  | .pattern_replacement => 6363
  | .class_renaming => 6464
  | .module_renaming => 6565
  | .signature_renaming => 6666
  | .type_renaming => 6767
  | .value_renaming => 6868
  | .pattern_renaming => 6969
  | .direction => 7373
  | .simple => 7474
  | .composite => 7575
  | .no_default => 7676
  | .normal_formal => 7777
  | .seq_formal => 7878
  | .type_formal => 8080
  | .phylum_formal => 8181
  | .«def» => 8383
  | .use => 8484
  | .qual_use => 8585
  | .class_use => 9393
  | .module_use => 9494
  | .type_use => 9595
  | .type_inst => 9696
  | .no_type => 9797
  | .value_use => 9898
  | .typed_value => 10100
  | .sig_use => 10201
  | .sig_inst => 10302
  | .no_sig => 10403
  | .pattern_use => 10504
  | .no_pattern => 10605
  | .typed_pattern => 10706
  | .fixed_sig => 10807
  | .mult_sig => 10908
  | .remote_type => 11009
  | .function_type => 11110
  | .private_type => 11312
  | .match_pattern => 11413
  | .pattern_call => 11514
  | .pattern_actual => 11615
  | .rest_pattern => 11716
  | .choice_pattern => 11817
  | .and_pattern => 11918
  | .pattern_var => 12019
  | .condition => 12120
  | .hole => 12221
  | .pattern_function => 12322
  | .block_stmt => 12423
  | .effect => 12524
  | .multi_call => 12625
  | .normal_assign => 12928
  | .collect_assign => 13029
  | .if_stmt => 13231
  | .for_in_stmt => 13332
  | .for_stmt => 13433
  | .case_stmt => 13534
  | .matcher => 13635
  | .integer_const => 13736
  | .real_const => 13837
  | .string_const => 13938
  | .char_const => 14039
  | .undefined => 14140
  | .no_expr => 14241
  | .funcall => 14342
  | .append => 14443
  | .empty => 14544
  | .class_value => 14645
  | .module_value => 14746
  | .signature_value => 14847
  | .type_value => 14948
  | .pattern_value => 15049
  | .«repeat» => 15150
  | .guarded => 15251
  | .controlled => 15352
  | .nil_Units => 2626
  | .list_Units => 2627
  | .append_Units => 2628
  | .nil_Declarations => 2727
  | .list_Declarations => 2728
  | .append_Declarations => 2729
  | .nil_Matches => 2828
  | .list_Matches => 2829
  | .append_Matches => 2830
  | .nil_Types => 2929
  | .list_Types => 2930
  | .append_Types => 2931
  | .nil_Expressions => 3030
  | .list_Expressions => 3031
  | .append_Expressions => 3032
  | .nil_Patterns => 3131
  | .list_Patterns => 3132
  | .append_Patterns => 3133
  | .nil_Actuals => 3232
  | .list_Actuals => 3233
  | .append_Actuals => 3234
  | .nil_TypeActuals => 3333
  | .list_TypeActuals => 3334
  | .append_TypeActuals => 3335
  | .nil_PatternActuals => 3434
  | .list_PatternActuals => 3435
  | .append_PatternActuals => 3436

/-- The constructor functions: second argument of `create_tnode`. -/
def arityNum : Con → Nat
  | .program => 2
  | .no_unit => 0
  | .with_unit => 1
  | .decl_unit => 1
  | .no_decl => 0
  | .block => 1
  | .class_decl => 5
  | .module_decl => 6
  | .signature_decl => 2
  | .phylum_decl => 3
  | .type_decl => 3
  | .value_decl => 4
  | .attribute_decl => 4
  | .function_decl => 3
  | .procedure_decl => 3
  | .constructor_decl => 2
  | .pattern_decl => 3
  | .inheritance => 3
  | .polymorphic => 3
  | .pragma_call => 2
  | .top_level_match => 1
  | .class_replacement => 2
  | .module_replacement => 2
  | .signature_replacement => 2
  | .type_replacement => 2
  | .value_replacement => 2
  | .pattern_replacement => 2
  | .class_renaming => 2
  | .module_renaming => 2
  | .signature_renaming => 2
  | .type_renaming => 2
  | .value_renaming => 2
  | .pattern_renaming => 2
  | .direction => 3
  | .simple => 1
  | .composite => 2
  | .no_default => 0
  | .normal_formal => 2
  | .seq_formal => 2
  | .type_formal => 2
  | .phylum_formal => 2
  | .«def» => 3
  | .use => 1
  | .qual_use => 2
  | .class_use => 1
  | .module_use => 1
  | .type_use => 1
  | .type_inst => 3
  | .no_type => 0
  | .value_use => 1
  | .typed_value => 2
  | .sig_use => 1
  | .sig_inst => 4
  | .no_sig => 0
  | .pattern_use => 1
  | .no_pattern => 0
  | .typed_pattern => 2
  | .fixed_sig => 1
  | .mult_sig => 2
  | .remote_type => 1
  | .function_type => 2
  | .private_type => 1
  | .match_pattern => 2
  | .pattern_call => 2
  | .pattern_actual => 2
  | .rest_pattern => 1
  | .choice_pattern => 1
  | .and_pattern => 2
  | .pattern_var => 1
  | .condition => 1
  | .hole => 0
  | .pattern_function => 2
  | .block_stmt => 1
  | .effect => 1
  | .multi_call => 3
  | .normal_assign => 2
  | .collect_assign => 2
  | .if_stmt => 3
  | .for_in_stmt => 3
  | .for_stmt => 2
  | .case_stmt => 3
  | .matcher => 2
  | .integer_const => 1
  | .real_const => 1
  | .string_const => 1
  | .char_const => 1
  | .undefined => 0
  | .no_expr => 0
  | .funcall => 2
  | .append => 2
  | .empty => 0
  | .class_value => 1
  | .module_value => 1
  | .signature_value => 1
  | .type_value => 1
  | .pattern_value => 1
  | .«repeat» => 1
  | .guarded => 2
  | .controlled => 3
  | .nil_Units => 0
  | .list_Units => 1
  | .append_Units => 2
  | .nil_Declarations => 0
  | .list_Declarations => 1
  | .append_Declarations => 2
  | .nil_Matches => 0
  | .list_Matches => 1
  | .append_Matches => 2
  | .nil_Types => 0
  | .list_Types => 1
  | .append_Types => 2
  | .nil_Expressions => 0
  | .list_Expressions => 1
  | .append_Expressions => 2
  | .nil_Patterns => 0
  | .list_Patterns => 1
  | .append_Patterns => 2
  | .nil_Actuals => 0
  | .list_Actuals => 1
  | .append_Actuals => 2
  | .nil_TypeActuals => 0
  | .list_TypeActuals => 1
  | .append_TypeActuals => 2
  | .nil_PatternActuals => 0
  | .list_PatternActuals => 1
  | .append_PatternActuals => 2

/-- The constructor functions: the phylum asserted of each parameter, in order (a leaf kind: its
`assert_` function is empty, aps-tree.handcode.i:17-24). -/
def assertTable : Con → List Kind
  | .program => [.leaf .string, .ph .Units]
  | .no_unit => []
  | .with_unit => [.leaf .string]
  | .decl_unit => [.ph .Declaration]
  | .no_decl => []
  | .block => [.ph .Declarations]
  | .class_decl => [.ph .Def, .ph .Declarations, .ph .Declaration, .ph .Signature, .ph .Block]
  | .module_decl => [.ph .Def, .ph .Declarations, .ph .Declarations, .ph .Declaration, .ph .Signature, .ph .Block]
  | .signature_decl => [.ph .Def, .ph .Signature]
  | .phylum_decl => [.ph .Def, .ph .Signature, .ph .Type]
  | .type_decl => [.ph .Def, .ph .Signature, .ph .Type]
  | .value_decl => [.ph .Def, .ph .Type, .ph .Direction, .ph .Default]
  | .attribute_decl => [.ph .Def, .ph .Type, .ph .Direction, .ph .Default]
  | .function_decl => [.ph .Def, .ph .Type, .ph .Block]
  | .procedure_decl => [.ph .Def, .ph .Type, .ph .Block]
  | .constructor_decl => [.ph .Def, .ph .Type]
  | .pattern_decl => [.ph .Def, .ph .Type, .ph .Pattern]
  | .inheritance => [.ph .Def, .ph .Type, .ph .Block]
  | .polymorphic => [.ph .Def, .ph .Declarations, .ph .Block]
  | .pragma_call => [.leaf .symbol, .ph .Expressions]
  | .top_level_match => [.ph .Match]
  | .class_replacement => [.ph .Class, .ph .Class]
  | .module_replacement => [.ph .Module, .ph .Module]
  | .signature_replacement => [.ph .Signature, .ph .Signature]
  | .type_replacement => [.ph .Type, .ph .Type]
  | .value_replacement => [.ph .Expression, .ph .Expression]
  | .pattern_replacement => [.ph .Pattern, .ph .Pattern]
  | .class_renaming => [.ph .Def, .ph .Class]
  | .module_renaming => [.ph .Def, .ph .Module]
  | .signature_renaming => [.ph .Def, .ph .Signature]
  | .type_renaming => [.ph .Def, .ph .Type]
  | .value_renaming => [.ph .Def, .ph .Expression]
  | .pattern_renaming => [.ph .Def, .ph .Pattern]
  | .direction => [.leaf .boolean, .leaf .boolean, .leaf .boolean]
  | .simple => [.ph .Expression]
  | .composite => [.ph .Expression, .ph .Expression]
  | .no_default => []
  | .normal_formal => [.ph .Def, .ph .Type]
  | .seq_formal => [.ph .Def, .ph .Type]
  | .type_formal => [.ph .Def, .ph .Signature]
  | .phylum_formal => [.ph .Def, .ph .Signature]
  | .«def» => [.leaf .symbol, .leaf .boolean, .leaf .boolean]
  | .use => [.leaf .symbol]
  | .qual_use => [.ph .Type, .leaf .symbol]
  | .class_use => [.ph .Use]
  | .module_use => [.ph .Use]
  | .type_use => [.ph .Use]
  | .type_inst => [.ph .Module, .ph .TypeActuals, .ph .Actuals]
  | .no_type => []
  | .value_use => [.ph .Use]
  | .typed_value => [.ph .Expression, .ph .Type]
  | .sig_use => [.ph .Use]
  | .sig_inst => [.leaf .boolean, .leaf .boolean, .ph .Class, .ph .TypeActuals]
  | .no_sig => []
  | .pattern_use => [.ph .Use]
  | .no_pattern => []
  | .typed_pattern => [.ph .Pattern, .ph .Type]
  | .fixed_sig => [.ph .Types]
  | .mult_sig => [.ph .Signature, .ph .Signature]
  | .remote_type => [.ph .Type]
  | .function_type => [.ph .Declarations, .ph .Declarations]
  | .private_type => [.ph .Type]
  | .match_pattern => [.ph .Pattern, .ph .Type]
  | .pattern_call => [.ph .Pattern, .ph .PatternActuals]
  | .pattern_actual => [.ph .Pattern, .ph .Expression]
  | .rest_pattern => [.ph .Pattern]
  | .choice_pattern => [.ph .Patterns]
  | .and_pattern => [.ph .Pattern, .ph .Pattern]
  | .pattern_var => [.ph .Declaration]
  | .condition => [.ph .Expression]
  | .hole => []
  | .pattern_function => [.ph .Declarations, .ph .Pattern]
  | .block_stmt => [.ph .Block]
  | .effect => [.ph .Expression]
  | .multi_call => [.ph .Expression, .ph .Actuals, .ph .Actuals]
  | .normal_assign => [.ph .Expression, .ph .Expression]
  | .collect_assign => [.ph .Expression, .ph .Expression]
  | .if_stmt => [.ph .Expression, .ph .Block, .ph .Block]
  | .for_in_stmt => [.ph .Declaration, .ph .Expression, .ph .Block]
  | .for_stmt => [.ph .Expression, .ph .Matches]
  | .case_stmt => [.ph .Expression, .ph .Matches, .ph .Block]
  | .matcher => [.ph .Pattern, .ph .Block]
  | .integer_const => [.leaf .string]
  | .real_const => [.leaf .string]
  | .string_const => [.leaf .string]
  | .char_const => [.leaf .string]
  | .undefined => []
  | .no_expr => []
  | .funcall => [.ph .Expression, .ph .Actuals]
  | .append => [.ph .Expression, .ph .Expression]
  | .empty => []
  | .class_value => [.ph .Class]
  | .module_value => [.ph .Module]
  | .signature_value => [.ph .Signature]
  | .type_value => [.ph .Type]
  | .pattern_value => [.ph .Pattern]
  | .«repeat» => [.ph .Expression]
  | .guarded => [.ph .Expression, .ph .Expression]
  | .controlled => [.ph .Expression, .ph .Declaration, .ph .Expression]
  | .nil_Units => []
  | .list_Units => [.ph .Unit]
  | .append_Units => [.ph .Units, .ph .Units]
  | .nil_Declarations => []
  | .list_Declarations => [.ph .Declaration]
  | .append_Declarations => [.ph .Declarations, .ph .Declarations]
  | .nil_Matches => []
  | .list_Matches => [.ph .Match]
  | .append_Matches => [.ph .Matches, .ph .Matches]
  | .nil_Types => []
  | .list_Types => [.ph .Type]
  | .append_Types => [.ph .Types, .ph .Types]
  | .nil_Expressions => []
  | .list_Expressions => [.ph .Expression]
  | .append_Expressions => [.ph .Expressions, .ph .Expressions]
  | .nil_Patterns => []
  | .list_Patterns => [.ph .Pattern]
  | .append_Patterns => [.ph .Patterns, .ph .Patterns]
  | .nil_Actuals => []
  | .list_Actuals => [.ph .Expression]
  | .append_Actuals => [.ph .Actuals, .ph .Actuals]
  | .nil_TypeActuals => []
  | .list_TypeActuals => [.ph .Type]
  | .append_TypeActuals => [.ph .TypeActuals, .ph .TypeActuals]
  | .nil_PatternActuals => []
  | .list_PatternActuals => [.ph .Pattern]
  | .append_PatternActuals => [.ph .PatternActuals, .ph .PatternActuals]

/-- The constructor functions: the assignments `children[k] = parameter j`, in order, as `(k, j)`. -/
def storeTable : Con → List (Nat × Nat)
  | .program => [(0, 0), (1, 1)]
  | .no_unit => []
  | .with_unit => [(0, 0)]
  | .decl_unit => [(0, 0)]
  | .no_decl => []
  | .block => [(0, 0)]
  | .class_decl => [(0, 0), (1, 1), (2, 2), (3, 3), (4, 4)]
  | .module_decl => [(0, 0), (1, 1), (2, 2), (3, 3), (4, 4), (5, 5)]
  | .signature_decl => [(0, 0), (1, 1)]
  | .phylum_decl => [(0, 0), (1, 1), (2, 2)]
  | .type_decl => [(0, 0), (1, 1), (2, 2)]
  | .value_decl => [(0, 0), (1, 1), (2, 2), (3, 3)]
  | .attribute_decl => [(0, 0), (1, 1), (2, 2), (3, 3)]
  | .function_decl => [(0, 0), (1, 1), (2, 2)]
  | .procedure_decl => [(0, 0), (1, 1), (2, 2)]
  | .constructor_decl => [(0, 0), (1, 1)]
  | .pattern_decl => [(0, 0), (1, 1), (2, 2)]
  | .inheritance => [(0, 0), (1, 1), (2, 2)]
  | .polymorphic => [(0, 0), (1, 1), (2, 2)]
  | .pragma_call => [(0, 0), (1, 1)]
  | .top_level_match => [(0, 0)]
  | .class_replacement => [(0, 0), (1, 1)]
  | .module_replacement => [(0, 0), (1, 1)]
  | .signature_replacement => [(0, 0), (1, 1)]
  | .type_replacement => [(0, 0), (1, 1)]
  | .value_replacement => [(0, 0), (1, 1)]
  | .pattern_replacement => [(0, 0), (1, 1)]
  | .class_renaming => [(0, 0), (1, 1)]
  | .module_renaming => [(0, 0), (1, 1)]
  | .signature_renaming => [(0, 0), (1, 1)]
  | .type_renaming => [(0, 0), (1, 1)]
  | .value_renaming => [(0, 0), (1, 1)]
  | .pattern_renaming => [(0, 0), (1, 1)]
  | .direction => [(0, 0), (1, 1), (2, 2)]
  | .simple => [(0, 0)]
  | .composite => [(0, 0), (1, 1)]
  | .no_default => []
  | .normal_formal => [(0, 0), (1, 1)]
  | .seq_formal => [(0, 0), (1, 1)]
  | .type_formal => [(0, 0), (1, 1)]
  | .phylum_formal => [(0, 0), (1, 1)]
  | .«def» => [(0, 0), (1, 1), (2, 2)]
  | .use => [(0, 0)]
  | .qual_use => [(0, 0), (1, 1)]
  | .class_use => [(0, 0)]
  | .module_use => [(0, 0)]
  | .type_use => [(0, 0)]
  | .type_inst => [(0, 0), (1, 1), (2, 2)]
  | .no_type => []
  | .value_use => [(0, 0)]
  | .typed_value => [(0, 0), (1, 1)]
  | .sig_use => [(0, 0)]
  | .sig_inst => [(0, 0), (1, 1), (2, 2), (3, 3)]
  | .no_sig => []
  | .pattern_use => [(0, 0)]
  | .no_pattern => []
  | .typed_pattern => [(0, 0), (1, 1)]
  | .fixed_sig => [(0, 0)]
  | .mult_sig => [(0, 0), (1, 1)]
  | .remote_type => [(0, 0)]
  | .function_type => [(0, 0), (1, 1)]
  | .private_type => [(0, 0)]
  | .match_pattern => [(0, 0), (1, 1)]
  | .pattern_call => [(0, 0), (1, 1)]
  | .pattern_actual => [(0, 0), (1, 1)]
  | .rest_pattern => [(0, 0)]
  | .choice_pattern => [(0, 0)]
  | .and_pattern => [(0, 0), (1, 1)]
  | .pattern_var => [(0, 0)]
  | .condition => [(0, 0)]
  | .hole => []
  | .pattern_function => [(0, 0), (1, 1)]
  | .block_stmt => [(0, 0)]
  | .effect => [(0, 0)]
  | .multi_call => [(0, 0), (1, 1), (2, 2)]
  | .normal_assign => [(0, 0), (1, 1)]
  | .collect_assign => [(0, 0), (1, 1)]
  | .if_stmt => [(0, 0), (1, 1), (2, 2)]
  | .for_in_stmt => [(0, 0), (1, 1), (2, 2)]
  | .for_stmt => [(0, 0), (1, 1)]
  | .case_stmt => [(0, 0), (1, 1), (2, 2)]
  | .matcher => [(0, 0), (1, 1)]
  | .integer_const => [(0, 0)]
  | .real_const => [(0, 0)]
  | .string_const => [(0, 0)]
  | .char_const => [(0, 0)]
  | .undefined => []
  | .no_expr => []
  | .funcall => [(0, 0), (1, 1)]
  | .append => [(0, 0), (1, 1)]
  | .empty => []
  | .class_value => [(0, 0)]
  | .module_value => [(0, 0)]
  | .signature_value => [(0, 0)]
  | .type_value => [(0, 0)]
  | .pattern_value => [(0, 0)]
  | .«repeat» => [(0, 0)]
  | .guarded => [(0, 0), (1, 1)]
  | .controlled => [(0, 0), (1, 1), (2, 2)]
  | .nil_Units => []
  | .list_Units => [(0, 0)]
  | .append_Units => [(0, 0), (1, 1)]
  | .nil_Declarations => []
  | .list_Declarations => [(0, 0)]
  | .append_Declarations => [(0, 0), (1, 1)]
  | .nil_Matches => []
  | .list_Matches => [(0, 0)]
  | .append_Matches => [(0, 0), (1, 1)]
  | .nil_Types => []
  | .list_Types => [(0, 0)]
  | .append_Types => [(0, 0), (1, 1)]
  | .nil_Expressions => []
  | .list_Expressions => [(0, 0)]
  | .append_Expressions => [(0, 0), (1, 1)]
  | .nil_Patterns => []
  | .list_Patterns => [(0, 0)]
  | .append_Patterns => [(0, 0), (1, 1)]
  | .nil_Actuals => []
  | .list_Actuals => [(0, 0)]
  | .append_Actuals => [(0, 0), (1, 1)]
  | .nil_TypeActuals => []
  | .list_TypeActuals => [(0, 0)]
  | .append_TypeActuals => [(0, 0), (1, 1)]
  | .nil_PatternActuals => []
  | .list_PatternActuals => [(0, 0)]
  | .append_PatternActuals => [(0, 0), (1, 1)]

/-- `copy_X` (aps-tree.c, from line 193): case key, constructor called, and its arguments
`copy_K(accessor(_node))`. -/
def copyTable : Phylum → List (Con × Con × List (Kind × Acc))
  | .Signature => [(.sig_use, .sig_use, [(.ph .Use, .sig_use_use)]),
      (.sig_inst, .sig_inst, [(.leaf .boolean, .sig_inst_is_input), (.leaf .boolean, .sig_inst_is_var), (.ph .Class, .sig_inst_class), (.ph .TypeActuals, .sig_inst_actuals)]),
      (.no_sig, .no_sig, []),
      (.mult_sig, .mult_sig, [(.ph .Signature, .mult_sig_sig1), (.ph .Signature, .mult_sig_sig2)]),
      (.fixed_sig, .fixed_sig, [(.ph .Types, .fixed_sig_types)])]
  | .Type => [(.type_use, .type_use, [(.ph .Use, .type_use_use)]),
      (.type_inst, .type_inst, [(.ph .Module, .type_inst_module), (.ph .TypeActuals, .type_inst_type_actuals), (.ph .Actuals, .type_inst_actuals)]),
      (.no_type, .no_type, []),
      (.remote_type, .remote_type, [(.ph .Type, .remote_type_nodetype)]),
      (.private_type, .private_type, [(.ph .Type, .private_type_rep)]),
      (.function_type, .function_type, [(.ph .Declarations, .function_type_formals), (.ph .Declarations, .function_type_return_values)])]
  | .Expression => [(.value_use, .value_use, [(.ph .Use, .value_use_use)]),
      (.typed_value, .typed_value, [(.ph .Expression, .typed_value_expr), (.ph .Type, .typed_value_type)]),
      (.integer_const, .integer_const, [(.leaf .string, .integer_const_token)]),
      (.real_const, .real_const, [(.leaf .string, .real_const_token)]),
      (.string_const, .string_const, [(.leaf .string, .string_const_token)]),
      (.char_const, .char_const, [(.leaf .string, .char_const_token)]),
      (.undefined, .undefined, []),
      (.no_expr, .no_expr, []),
      (.funcall, .funcall, [(.ph .Expression, .funcall_f), (.ph .Actuals, .funcall_actuals)]),
      (.append, .append, [(.ph .Expression, .append_s1), (.ph .Expression, .append_s2)]),
      (.empty, .empty, []),
      (.class_value, .class_value, [(.ph .Class, .class_value_c)]),
      (.module_value, .module_value, [(.ph .Module, .module_value_m)]),
      (.signature_value, .signature_value, [(.ph .Signature, .signature_value_s)]),
      (.type_value, .type_value, [(.ph .Type, .type_value_t)]),
      (.pattern_value, .pattern_value, [(.ph .Pattern, .pattern_value_p)]),
      (.«repeat», .«repeat», [(.ph .Expression, .repeat_expr)]),
      (.controlled, .controlled, [(.ph .Expression, .controlled_expr), (.ph .Declaration, .controlled_formal), (.ph .Expression, .controlled_set)]),
      (.guarded, .guarded, [(.ph .Expression, .guarded_expr), (.ph .Expression, .guarded_cond)])]
  | .Pattern => [(.pattern_use, .pattern_use, [(.ph .Use, .pattern_use_use)]),
      (.no_pattern, .no_pattern, []),
      (.typed_pattern, .typed_pattern, [(.ph .Pattern, .typed_pattern_pat), (.ph .Type, .typed_pattern_type)]),
      (.match_pattern, .match_pattern, [(.ph .Pattern, .match_pattern_pat), (.ph .Type, .match_pattern_type)]),
      (.pattern_call, .pattern_call, [(.ph .Pattern, .pattern_call_func), (.ph .PatternActuals, .pattern_call_actuals)]),
      (.pattern_actual, .pattern_actual, [(.ph .Pattern, .pattern_actual_arg), (.ph .Expression, .pattern_actual_formal)]),
      (.rest_pattern, .rest_pattern, [(.ph .Pattern, .rest_pattern_constraint)]),
      (.choice_pattern, .choice_pattern, [(.ph .Patterns, .choice_pattern_choices)]),
      (.and_pattern, .and_pattern, [(.ph .Pattern, .and_pattern_p1), (.ph .Pattern, .and_pattern_p2)]),
      (.pattern_var, .pattern_var, [(.ph .Declaration, .pattern_var_formal)]),
      (.condition, .condition, [(.ph .Expression, .condition_e)]),
      (.pattern_function, .pattern_function, [(.ph .Declarations, .pattern_function_formals), (.ph .Pattern, .pattern_function_body)]),
      (.hole, .hole, [])]
  | .Module => [(.module_use, .module_use, [(.ph .Use, .module_use_use)])]
  | .Class => [(.class_use, .class_use, [(.ph .Use, .class_use_use)])]
  | .Def => [(.«def», .«def», [(.leaf .symbol, .def_name), (.leaf .boolean, .def_is_constant), (.leaf .boolean, .def_is_public)])]
  | .Use => [(.qual_use, .qual_use, [(.ph .Type, .qual_use_from), (.leaf .symbol, .qual_use_name)]),
      (.use, .use, [(.leaf .symbol, .use_name)])]
  | .Program => [(.program, .program, [(.leaf .string, .program_name), (.ph .Units, .program_units)])]
  | .Unit => [(.no_unit, .no_unit, []),
      (.decl_unit, .decl_unit, [(.ph .Declaration, .decl_unit_decl)]),
      (.with_unit, .with_unit, [(.leaf .string, .with_unit_name)])]
  | .Declaration => [(.no_decl, .no_decl, []),
      (.class_decl, .class_decl, [(.ph .Def, .class_decl_def), (.ph .Declarations, .class_decl_type_formals), (.ph .Declaration, .class_decl_result_type), (.ph .Signature, .class_decl_parent), (.ph .Block, .class_decl_contents)]),
      (.module_decl, .module_decl, [(.ph .Def, .module_decl_def), (.ph .Declarations, .module_decl_type_formals), (.ph .Declarations, .module_decl_value_formals), (.ph .Declaration, .module_decl_result_type), (.ph .Signature, .module_decl_parent), (.ph .Block, .module_decl_contents)]),
      (.signature_decl, .signature_decl, [(.ph .Def, .signature_decl_def), (.ph .Signature, .signature_decl_sig)]),
      (.phylum_decl, .phylum_decl, [(.ph .Def, .phylum_decl_def), (.ph .Signature, .phylum_decl_sig), (.ph .Type, .phylum_decl_type)]),
      (.type_decl, .type_decl, [(.ph .Def, .type_decl_def), (.ph .Signature, .type_decl_sig), (.ph .Type, .type_decl_type)]),
      (.value_decl, .value_decl, [(.ph .Def, .value_decl_def), (.ph .Type, .value_decl_type), (.ph .Direction, .value_decl_direction), (.ph .Default, .value_decl_default)]),
      (.attribute_decl, .attribute_decl, [(.ph .Def, .attribute_decl_def), (.ph .Type, .attribute_decl_type), (.ph .Direction, .attribute_decl_direction), (.ph .Default, .attribute_decl_default)]),
      (.function_decl, .function_decl, [(.ph .Def, .function_decl_def), (.ph .Type, .function_decl_type), (.ph .Block, .function_decl_body)]),
      (.procedure_decl, .procedure_decl, [(.ph .Def, .procedure_decl_def), (.ph .Type, .procedure_decl_type), (.ph .Block, .procedure_decl_body)]),
      (.constructor_decl, .constructor_decl, [(.ph .Def, .constructor_decl_def), (.ph .Type, .constructor_decl_type)]),
      (.pattern_decl, .pattern_decl, [(.ph .Def, .pattern_decl_def), (.ph .Type, .pattern_decl_type), (.ph .Pattern, .pattern_decl_choices)]),
      (.inheritance, .inheritance, [(.ph .Def, .inheritance_def), (.ph .Type, .inheritance_used), (.ph .Block, .inheritance_body)]),
      (.polymorphic, .polymorphic, [(.ph .Def, .polymorphic_def), (.ph .Declarations, .polymorphic_type_formals), (.ph .Block, .polymorphic_body)]),
      (.pragma_call, .pragma_call, [(.leaf .symbol, .pragma_call_name), (.ph .Expressions, .pragma_call_parameters)]),
      (.top_level_match, .top_level_match, [(.ph .Match, .top_level_match_m)]),
      (.class_replacement, .class_replacement, [(.ph .Class, .class_replacement_class), (.ph .Class, .class_replacement_as)]),
      (.module_replacement, .module_replacement, [(.ph .Module, .module_replacement_module), (.ph .Module, .module_replacement_as)]),
      (.signature_replacement, .signature_replacement, [(.ph .Signature, .signature_replacement_sig), (.ph .Signature, .signature_replacement_as)]),
      (.type_replacement, .type_replacement, [(.ph .Type, .type_replacement_type), (.ph .Type, .type_replacement_as)]),
      (.value_replacement, .value_replacement, [(.ph .Expression, .value_replacement_value), (.ph .Expression, .value_replacement_as)]),
      (.pattern_replacement, .pattern_replacement, [(.ph .Pattern, .pattern_replacement_pattern), (.ph .Pattern, .pattern_replacement_as)]),
      (.class_renaming, .class_renaming, [(.ph .Def, .class_renaming_def), (.ph .Class, .class_renaming_old)]),
      (.module_renaming, .module_renaming, [(.ph .Def, .module_renaming_def), (.ph .Module, .module_renaming_old)]),
      (.signature_renaming, .signature_renaming, [(.ph .Def, .signature_renaming_def), (.ph .Signature, .signature_renaming_old)]),
      (.type_renaming, .type_renaming, [(.ph .Def, .type_renaming_def), (.ph .Type, .type_renaming_old)]),
      (.value_renaming, .value_renaming, [(.ph .Def, .value_renaming_def), (.ph .Expression, .value_renaming_old)]),
      (.pattern_renaming, .pattern_renaming, [(.ph .Def, .pattern_renaming_def), (.ph .Pattern, .pattern_renaming_old)]),
      (.normal_formal, .normal_formal, [(.ph .Def, .normal_formal_def), (.ph .Type, .normal_formal_type)]),
      (.seq_formal, .seq_formal, [(.ph .Def, .seq_formal_def), (.ph .Type, .seq_formal_type)]),
      (.type_formal, .type_formal, [(.ph .Def, .type_formal_def), (.ph .Signature, .type_formal_sig)]),
      (.phylum_formal, .phylum_formal, [(.ph .Def, .phylum_formal_def), (.ph .Signature, .phylum_formal_sig)]),
      (.block_stmt, .block_stmt, [(.ph .Block, .block_stmt_body)]),
      (.effect, .effect, [(.ph .Expression, .effect_e)]),
      (.multi_call, .multi_call, [(.ph .Expression, .multi_call_proc), (.ph .Actuals, .multi_call_actuals), (.ph .Actuals, .multi_call_results)]),
      (.normal_assign, .normal_assign, [(.ph .Expression, .normal_assign_lhs), (.ph .Expression, .normal_assign_rhs)]),
      (.collect_assign, .collect_assign, [(.ph .Expression, .collect_assign_lhs), (.ph .Expression, .collect_assign_rhs)]),
      (.if_stmt, .if_stmt, [(.ph .Expression, .if_stmt_cond), (.ph .Block, .if_stmt_if_true), (.ph .Block, .if_stmt_if_false)]),
      (.for_in_stmt, .for_in_stmt, [(.ph .Declaration, .for_in_stmt_formal), (.ph .Expression, .for_in_stmt_seq), (.ph .Block, .for_in_stmt_body)]),
      (.case_stmt, .case_stmt, [(.ph .Expression, .case_stmt_expr), (.ph .Matches, .case_stmt_matchers), (.ph .Block, .case_stmt_default)]),
      (.for_stmt, .for_stmt, [(.ph .Expression, .for_stmt_expr), (.ph .Matches, .for_stmt_matchers)])]
  | .Block => [(.block, .block, [(.ph .Declarations, .block_body)])]
  | .Match => [(.matcher, .matcher, [(.ph .Pattern, .matcher_pat), (.ph .Block, .matcher_body)])]
  | .Direction => [(.direction, .direction, [(.leaf .boolean, .direction_is_input), (.leaf .boolean, .direction_is_collection), (.leaf .boolean, .direction_is_circular)])]
  | .Default => [(.simple, .simple, [(.ph .Expression, .simple_value)]),
      (.no_default, .no_default, []),
      (.composite, .composite, [(.ph .Expression, .composite_initial), (.ph .Expression, .composite_combiner)])]
  | .Units => [(.nil_Units, .nil_Units, []),
      (.list_Units, .list_Units, [(.ph .Unit, .list_Units_elem)]),
      (.append_Units, .append_Units, [(.ph .Units, .append_Units_l1), (.ph .Units, .append_Units_l2)])]
  | .Declarations => [(.nil_Declarations, .nil_Declarations, []),
      (.list_Declarations, .list_Declarations, [(.ph .Declaration, .list_Declarations_elem)]),
      (.append_Declarations, .append_Declarations, [(.ph .Declarations, .append_Declarations_l1), (.ph .Declarations, .append_Declarations_l2)])]
  | .Matches => [(.nil_Matches, .nil_Matches, []),
      (.list_Matches, .list_Matches, [(.ph .Match, .list_Matches_elem)]),
      (.append_Matches, .append_Matches, [(.ph .Matches, .append_Matches_l1), (.ph .Matches, .append_Matches_l2)])]
  | .Types => [(.nil_Types, .nil_Types, []),
      (.list_Types, .list_Types, [(.ph .Type, .list_Types_elem)]),
      (.append_Types, .append_Types, [(.ph .Types, .append_Types_l1), (.ph .Types, .append_Types_l2)])]
  | .Expressions => [(.nil_Expressions, .nil_Expressions, []),
      (.list_Expressions, .list_Expressions, [(.ph .Expression, .list_Expressions_elem)]),
      (.append_Expressions, .append_Expressions, [(.ph .Expressions, .append_Expressions_l1), (.ph .Expressions, .append_Expressions_l2)])]
  | .Patterns => [(.nil_Patterns, .nil_Patterns, []),
      (.list_Patterns, .list_Patterns, [(.ph .Pattern, .list_Patterns_elem)]),
      (.append_Patterns, .append_Patterns, [(.ph .Patterns, .append_Patterns_l1), (.ph .Patterns, .append_Patterns_l2)])]
  | .Actuals => [(.nil_Actuals, .nil_Actuals, []),
      (.list_Actuals, .list_Actuals, [(.ph .Expression, .list_Actuals_elem)]),
      (.append_Actuals, .append_Actuals, [(.ph .Actuals, .append_Actuals_l1), (.ph .Actuals, .append_Actuals_l2)])]
  | .TypeActuals => [(.nil_TypeActuals, .nil_TypeActuals, []),
      (.list_TypeActuals, .list_TypeActuals, [(.ph .Type, .list_TypeActuals_elem)]),
      (.append_TypeActuals, .append_TypeActuals, [(.ph .TypeActuals, .append_TypeActuals_l1), (.ph .TypeActuals, .append_TypeActuals_l2)])]
  | .PatternActuals => [(.nil_PatternActuals, .nil_PatternActuals, []),
      (.list_PatternActuals, .list_PatternActuals, [(.ph .Pattern, .list_PatternActuals_elem)]),
      (.append_PatternActuals, .append_PatternActuals, [(.ph .PatternActuals, .append_PatternActuals_l1), (.ph .PatternActuals, .append_PatternActuals_l2)])]

/-- `traverse_X_skip` (aps-traverse.c:12-705): case key and the calls `traverse_K(func,arg,accessor(_node))`. -/
def travTable : Phylum → List (Con × List (Kind × Acc))
  | .Signature => [(.mult_sig, [(.ph .Signature, .mult_sig_sig1), (.ph .Signature, .mult_sig_sig2)]),
      (.fixed_sig, [(.ph .Types, .fixed_sig_types)]),
      (.no_sig, []),
      (.sig_inst, [(.leaf .boolean, .sig_inst_is_input), (.leaf .boolean, .sig_inst_is_var), (.ph .Class, .sig_inst_class), (.ph .TypeActuals, .sig_inst_actuals)]),
      (.sig_use, [(.ph .Use, .sig_use_use)])]
  | .Type => [(.private_type, [(.ph .Type, .private_type_rep)]),
      (.function_type, [(.ph .Declarations, .function_type_formals), (.ph .Declarations, .function_type_return_values)]),
      (.remote_type, [(.ph .Type, .remote_type_nodetype)]),
      (.no_type, []),
      (.type_inst, [(.ph .Module, .type_inst_module), (.ph .TypeActuals, .type_inst_type_actuals), (.ph .Actuals, .type_inst_actuals)]),
      (.type_use, [(.ph .Use, .type_use_use)])]
  | .Expression => [(.controlled, [(.ph .Expression, .controlled_expr), (.ph .Declaration, .controlled_formal), (.ph .Expression, .controlled_set)]),
      (.guarded, [(.ph .Expression, .guarded_expr), (.ph .Expression, .guarded_cond)]),
      (.«repeat», [(.ph .Expression, .repeat_expr)]),
      (.pattern_value, [(.ph .Pattern, .pattern_value_p)]),
      (.type_value, [(.ph .Type, .type_value_t)]),
      (.signature_value, [(.ph .Signature, .signature_value_s)]),
      (.module_value, [(.ph .Module, .module_value_m)]),
      (.class_value, [(.ph .Class, .class_value_c)]),
      (.empty, []),
      (.append, [(.ph .Expression, .append_s1), (.ph .Expression, .append_s2)]),
      (.funcall, [(.ph .Expression, .funcall_f), (.ph .Actuals, .funcall_actuals)]),
      (.no_expr, []),
      (.undefined, []),
      (.char_const, [(.leaf .string, .char_const_token)]),
      (.string_const, [(.leaf .string, .string_const_token)]),
      (.real_const, [(.leaf .string, .real_const_token)]),
      (.integer_const, [(.leaf .string, .integer_const_token)]),
      (.typed_value, [(.ph .Expression, .typed_value_expr), (.ph .Type, .typed_value_type)]),
      (.value_use, [(.ph .Use, .value_use_use)])]
  | .Pattern => [(.pattern_function, [(.ph .Declarations, .pattern_function_formals), (.ph .Pattern, .pattern_function_body)]),
      (.hole, []),
      (.condition, [(.ph .Expression, .condition_e)]),
      (.pattern_var, [(.ph .Declaration, .pattern_var_formal)]),
      (.and_pattern, [(.ph .Pattern, .and_pattern_p1), (.ph .Pattern, .and_pattern_p2)]),
      (.choice_pattern, [(.ph .Patterns, .choice_pattern_choices)]),
      (.rest_pattern, [(.ph .Pattern, .rest_pattern_constraint)]),
      (.pattern_actual, [(.ph .Pattern, .pattern_actual_arg), (.ph .Expression, .pattern_actual_formal)]),
      (.pattern_call, [(.ph .Pattern, .pattern_call_func), (.ph .PatternActuals, .pattern_call_actuals)]),
      (.match_pattern, [(.ph .Pattern, .match_pattern_pat), (.ph .Type, .match_pattern_type)]),
      (.typed_pattern, [(.ph .Pattern, .typed_pattern_pat), (.ph .Type, .typed_pattern_type)]),
      (.no_pattern, []),
      (.pattern_use, [(.ph .Use, .pattern_use_use)])]
  | .Module => [(.module_use, [(.ph .Use, .module_use_use)])]
  | .Class => [(.class_use, [(.ph .Use, .class_use_use)])]
  | .Def => [(.«def», [(.leaf .symbol, .def_name), (.leaf .boolean, .def_is_constant), (.leaf .boolean, .def_is_public)])]
  | .Use => [(.qual_use, [(.ph .Type, .qual_use_from), (.leaf .symbol, .qual_use_name)]),
      (.use, [(.leaf .symbol, .use_name)])]
  | .Program => [(.program, [(.leaf .string, .program_name), (.ph .Units, .program_units)])]
  | .Unit => [(.decl_unit, [(.ph .Declaration, .decl_unit_decl)]),
      (.with_unit, [(.leaf .string, .with_unit_name)]),
      (.no_unit, [])]
  | .Declaration => [(.case_stmt, [(.ph .Expression, .case_stmt_expr), (.ph .Matches, .case_stmt_matchers), (.ph .Block, .case_stmt_default)]),
      (.for_stmt, [(.ph .Expression, .for_stmt_expr), (.ph .Matches, .for_stmt_matchers)]),
      (.for_in_stmt, [(.ph .Declaration, .for_in_stmt_formal), (.ph .Expression, .for_in_stmt_seq), (.ph .Block, .for_in_stmt_body)]),
      (.if_stmt, [(.ph .Expression, .if_stmt_cond), (.ph .Block, .if_stmt_if_true), (.ph .Block, .if_stmt_if_false)]),
      (.collect_assign, [(.ph .Expression, .collect_assign_lhs), (.ph .Expression, .collect_assign_rhs)]),
      (.normal_assign, [(.ph .Expression, .normal_assign_lhs), (.ph .Expression, .normal_assign_rhs)]),
      (.multi_call, [(.ph .Expression, .multi_call_proc), (.ph .Actuals, .multi_call_actuals), (.ph .Actuals, .multi_call_results)]),
      (.effect, [(.ph .Expression, .effect_e)]),
      (.block_stmt, [(.ph .Block, .block_stmt_body)]),
      (.phylum_formal, [(.ph .Def, .phylum_formal_def), (.ph .Signature, .phylum_formal_sig)]),
      (.type_formal, [(.ph .Def, .type_formal_def), (.ph .Signature, .type_formal_sig)]),
      (.seq_formal, [(.ph .Def, .seq_formal_def), (.ph .Type, .seq_formal_type)]),
      (.normal_formal, [(.ph .Def, .normal_formal_def), (.ph .Type, .normal_formal_type)]),
      (.pattern_renaming, [(.ph .Def, .pattern_renaming_def), (.ph .Pattern, .pattern_renaming_old)]),
      (.value_renaming, [(.ph .Def, .value_renaming_def), (.ph .Expression, .value_renaming_old)]),
      (.type_renaming, [(.ph .Def, .type_renaming_def), (.ph .Type, .type_renaming_old)]),
      (.signature_renaming, [(.ph .Def, .signature_renaming_def), (.ph .Signature, .signature_renaming_old)]),
      (.module_renaming, [(.ph .Def, .module_renaming_def), (.ph .Module, .module_renaming_old)]),
      (.class_renaming, [(.ph .Def, .class_renaming_def), (.ph .Class, .class_renaming_old)]),
      (.pattern_replacement, [(.ph .Pattern, .pattern_replacement_pattern), (.ph .Pattern, .pattern_replacement_as)]),
      (.value_replacement, [(.ph .Expression, .value_replacement_value), (.ph .Expression, .value_replacement_as)]),
      (.type_replacement, [(.ph .Type, .type_replacement_type), (.ph .Type, .type_replacement_as)]),
      (.signature_replacement, [(.ph .Signature, .signature_replacement_sig), (.ph .Signature, .signature_replacement_as)]),
      (.module_replacement, [(.ph .Module, .module_replacement_module), (.ph .Module, .module_replacement_as)]),
      (.class_replacement, [(.ph .Class, .class_replacement_class), (.ph .Class, .class_replacement_as)]),
      (.top_level_match, [(.ph .Match, .top_level_match_m)]),
      (.pragma_call, [(.leaf .symbol, .pragma_call_name), (.ph .Expressions, .pragma_call_parameters)]),
      (.polymorphic, [(.ph .Def, .polymorphic_def), (.ph .Declarations, .polymorphic_type_formals), (.ph .Block, .polymorphic_body)]),
      (.inheritance, [(.ph .Def, .inheritance_def), (.ph .Type, .inheritance_used), (.ph .Block, .inheritance_body)]),
      (.pattern_decl, [(.ph .Def, .pattern_decl_def), (.ph .Type, .pattern_decl_type), (.ph .Pattern, .pattern_decl_choices)]),
      (.constructor_decl, [(.ph .Def, .constructor_decl_def), (.ph .Type, .constructor_decl_type)]),
      (.procedure_decl, [(.ph .Def, .procedure_decl_def), (.ph .Type, .procedure_decl_type), (.ph .Block, .procedure_decl_body)]),
      (.function_decl, [(.ph .Def, .function_decl_def), (.ph .Type, .function_decl_type), (.ph .Block, .function_decl_body)]),
      (.attribute_decl, [(.ph .Def, .attribute_decl_def), (.ph .Type, .attribute_decl_type), (.ph .Direction, .attribute_decl_direction), (.ph .Default, .attribute_decl_default)]),
      (.value_decl, [(.ph .Def, .value_decl_def), (.ph .Type, .value_decl_type), (.ph .Direction, .value_decl_direction), (.ph .Default, .value_decl_default)]),
      (.type_decl, [(.ph .Def, .type_decl_def), (.ph .Signature, .type_decl_sig), (.ph .Type, .type_decl_type)]),
      (.phylum_decl, [(.ph .Def, .phylum_decl_def), (.ph .Signature, .phylum_decl_sig), (.ph .Type, .phylum_decl_type)]),
      (.signature_decl, [(.ph .Def, .signature_decl_def), (.ph .Signature, .signature_decl_sig)]),
      (.module_decl, [(.ph .Def, .module_decl_def), (.ph .Declarations, .module_decl_type_formals), (.ph .Declarations, .module_decl_value_formals), (.ph .Declaration, .module_decl_result_type), (.ph .Signature, .module_decl_parent), (.ph .Block, .module_decl_contents)]),
      (.class_decl, [(.ph .Def, .class_decl_def), (.ph .Declarations, .class_decl_type_formals), (.ph .Declaration, .class_decl_result_type), (.ph .Signature, .class_decl_parent), (.ph .Block, .class_decl_contents)]),
      (.no_decl, [])]
  | .Block => [(.block, [(.ph .Declarations, .block_body)])]
  | .Match => [(.matcher, [(.ph .Pattern, .matcher_pat), (.ph .Block, .matcher_body)])]
  | .Direction => [(.direction, [(.leaf .boolean, .direction_is_input), (.leaf .boolean, .direction_is_collection), (.leaf .boolean, .direction_is_circular)])]
  | .Default => [(.no_default, []),
      (.composite, [(.ph .Expression, .composite_initial), (.ph .Expression, .composite_combiner)]),
      (.simple, [(.ph .Expression, .simple_value)])]
  | .Units => [(.nil_Units, []),
      (.list_Units, [(.ph .Unit, .list_Units_elem)]),
      (.append_Units, [(.ph .Units, .append_Units_l1), (.ph .Units, .append_Units_l2)])]
  | .Declarations => [(.nil_Declarations, []),
      (.list_Declarations, [(.ph .Declaration, .list_Declarations_elem)]),
      (.append_Declarations, [(.ph .Declarations, .append_Declarations_l1), (.ph .Declarations, .append_Declarations_l2)])]
  | .Matches => [(.nil_Matches, []),
      (.list_Matches, [(.ph .Match, .list_Matches_elem)]),
      (.append_Matches, [(.ph .Matches, .append_Matches_l1), (.ph .Matches, .append_Matches_l2)])]
  | .Types => [(.nil_Types, []),
      (.list_Types, [(.ph .Type, .list_Types_elem)]),
      (.append_Types, [(.ph .Types, .append_Types_l1), (.ph .Types, .append_Types_l2)])]
  | .Expressions => [(.nil_Expressions, []),
      (.list_Expressions, [(.ph .Expression, .list_Expressions_elem)]),
      (.append_Expressions, [(.ph .Expressions, .append_Expressions_l1), (.ph .Expressions, .append_Expressions_l2)])]
  | .Patterns => [(.nil_Patterns, []),
      (.list_Patterns, [(.ph .Pattern, .list_Patterns_elem)]),
      (.append_Patterns, [(.ph .Patterns, .append_Patterns_l1), (.ph .Patterns, .append_Patterns_l2)])]
  | .Actuals => [(.nil_Actuals, []),
      (.list_Actuals, [(.ph .Expression, .list_Actuals_elem)]),
      (.append_Actuals, [(.ph .Actuals, .append_Actuals_l1), (.ph .Actuals, .append_Actuals_l2)])]
  | .TypeActuals => [(.nil_TypeActuals, []),
      (.list_TypeActuals, [(.ph .Type, .list_TypeActuals_elem)]),
      (.append_TypeActuals, [(.ph .TypeActuals, .append_TypeActuals_l1), (.ph .TypeActuals, .append_TypeActuals_l2)])]
  | .PatternActuals => [(.nil_PatternActuals, []),
      (.list_PatternActuals, [(.ph .Pattern, .list_PatternActuals_elem)]),
      (.append_PatternActuals, [(.ph .PatternActuals, .append_PatternActuals_l1), (.ph .PatternActuals, .append_PatternActuals_l2)])]

/-- `dump_lisp_X` (aps-tree-dump.c:7-880): case key, name printed, and the calls
`dump_lisp_K(accessor(_node))`. -/
def dumpTable : Phylum → List (Con × List Char × List (Kind × Acc))
  | .Signature => [(.mult_sig, "mult_sig".toList, [(.ph .Signature, .mult_sig_sig1), (.ph .Signature, .mult_sig_sig2)]),
      (.fixed_sig, "fixed_sig".toList, [(.ph .Types, .fixed_sig_types)]),
      (.no_sig, "no_sig".toList, []),
      (.sig_inst, "sig_inst".toList, [(.leaf .boolean, .sig_inst_is_input), (.leaf .boolean, .sig_inst_is_var), (.ph .Class, .sig_inst_class), (.ph .TypeActuals, .sig_inst_actuals)]),
      (.sig_use, "sig_use".toList, [(.ph .Use, .sig_use_use)])]
  | .Type => [(.private_type, "private_type".toList, [(.ph .Type, .private_type_rep)]),
      (.function_type, "function_type".toList, [(.ph .Declarations, .function_type_formals), (.ph .Declarations, .function_type_return_values)]),
      (.remote_type, "remote_type".toList, [(.ph .Type, .remote_type_nodetype)]),
      (.no_type, "no_type".toList, []),
      (.type_inst, "type_inst".toList, [(.ph .Module, .type_inst_module), (.ph .TypeActuals, .type_inst_type_actuals), (.ph .Actuals, .type_inst_actuals)]),
      (.type_use, "type_use".toList, [(.ph .Use, .type_use_use)])]
  | .Expression => [(.controlled, "controlled".toList, [(.ph .Expression, .controlled_expr), (.ph .Declaration, .controlled_formal), (.ph .Expression, .controlled_set)]),
      (.guarded, "guarded".toList, [(.ph .Expression, .guarded_expr), (.ph .Expression, .guarded_cond)]),
      (.«repeat», "repeat".toList, [(.ph .Expression, .repeat_expr)]),
      (.pattern_value, "pattern_value".toList, [(.ph .Pattern, .pattern_value_p)]),
      (.type_value, "type_value".toList, [(.ph .Type, .type_value_t)]),
      (.signature_value, "signature_value".toList, [(.ph .Signature, .signature_value_s)]),
      (.module_value, "module_value".toList, [(.ph .Module, .module_value_m)]),
      (.class_value, "class_value".toList, [(.ph .Class, .class_value_c)]),
      (.empty, "empty".toList, []),
      (.append, "append".toList, [(.ph .Expression, .append_s1), (.ph .Expression, .append_s2)]),
      (.funcall, "funcall".toList, [(.ph .Expression, .funcall_f), (.ph .Actuals, .funcall_actuals)]),
      (.no_expr, "no_expr".toList, []),
      (.undefined, "undefined".toList, []),
      (.char_const, "char_const".toList, [(.leaf .string, .char_const_token)]),
      (.string_const, "string_const".toList, [(.leaf .string, .string_const_token)]),
      (.real_const, "real_const".toList, [(.leaf .string, .real_const_token)]),
      (.integer_const, "integer_const".toList, [(.leaf .string, .integer_const_token)]),
      (.typed_value, "typed_value".toList, [(.ph .Expression, .typed_value_expr), (.ph .Type, .typed_value_type)]),
      (.value_use, "value_use".toList, [(.ph .Use, .value_use_use)])]
  | .Pattern => [(.pattern_function, "pattern_function".toList, [(.ph .Declarations, .pattern_function_formals), (.ph .Pattern, .pattern_function_body)]),
      (.hole, "hole".toList, []),
      (.condition, "condition".toList, [(.ph .Expression, .condition_e)]),
      (.pattern_var, "pattern_var".toList, [(.ph .Declaration, .pattern_var_formal)]),
      (.and_pattern, "and_pattern".toList, [(.ph .Pattern, .and_pattern_p1), (.ph .Pattern, .and_pattern_p2)]),
      (.choice_pattern, "choice_pattern".toList, [(.ph .Patterns, .choice_pattern_choices)]),
      (.rest_pattern, "rest_pattern".toList, [(.ph .Pattern, .rest_pattern_constraint)]),
      (.pattern_actual, "pattern_actual".toList, [(.ph .Pattern, .pattern_actual_arg), (.ph .Expression, .pattern_actual_formal)]),
      (.pattern_call, "pattern_call".toList, [(.ph .Pattern, .pattern_call_func), (.ph .PatternActuals, .pattern_call_actuals)]),
      (.match_pattern, "match_pattern".toList, [(.ph .Pattern, .match_pattern_pat), (.ph .Type, .match_pattern_type)]),
      (.typed_pattern, "typed_pattern".toList, [(.ph .Pattern, .typed_pattern_pat), (.ph .Type, .typed_pattern_type)]),
      (.no_pattern, "no_pattern".toList, []),
      (.pattern_use, "pattern_use".toList, [(.ph .Use, .pattern_use_use)])]
  | .Module => [(.module_use, "module_use".toList, [(.ph .Use, .module_use_use)])]
  | .Class => [(.class_use, "class_use".toList, [(.ph .Use, .class_use_use)])]
  | .Def => [(.«def», "def".toList, [(.leaf .symbol, .def_name), (.leaf .boolean, .def_is_constant), (.leaf .boolean, .def_is_public)])]
  | .Use => [(.qual_use, "qual_use".toList, [(.ph .Type, .qual_use_from), (.leaf .symbol, .qual_use_name)]),
      (.use, "use".toList, [(.leaf .symbol, .use_name)])]
  | .Program => [(.program, "program".toList, [(.leaf .string, .program_name), (.ph .Units, .program_units)])]
  | .Unit => [(.decl_unit, "decl_unit".toList, [(.ph .Declaration, .decl_unit_decl)]),
      (.with_unit, "with_unit".toList, [(.leaf .string, .with_unit_name)]),
      (.no_unit, "no_unit".toList, [])]
  | .Declaration => [(.case_stmt, "case_stmt".toList, [(.ph .Expression, .case_stmt_expr), (.ph .Matches, .case_stmt_matchers), (.ph .Block, .case_stmt_default)]),
      (.for_stmt, "for_stmt".toList, [(.ph .Expression, .for_stmt_expr), (.ph .Matches, .for_stmt_matchers)]),
      (.for_in_stmt, "for_in_stmt".toList, [(.ph .Declaration, .for_in_stmt_formal), (.ph .Expression, .for_in_stmt_seq), (.ph .Block, .for_in_stmt_body)]),
      (.if_stmt, "if_stmt".toList, [(.ph .Expression, .if_stmt_cond), (.ph .Block, .if_stmt_if_true), (.ph .Block, .if_stmt_if_false)]),
      (.collect_assign, "collect_assign".toList, [(.ph .Expression, .collect_assign_lhs), (.ph .Expression, .collect_assign_rhs)]),
      (.normal_assign, "normal_assign".toList, [(.ph .Expression, .normal_assign_lhs), (.ph .Expression, .normal_assign_rhs)]),
      (.multi_call, "multi_call".toList, [(.ph .Expression, .multi_call_proc), (.ph .Actuals, .multi_call_actuals), (.ph .Actuals, .multi_call_results)]),
      (.effect, "effect".toList, [(.ph .Expression, .effect_e)]),
      (.block_stmt, "block_stmt".toList, [(.ph .Block, .block_stmt_body)]),
      (.phylum_formal, "phylum_formal".toList, [(.ph .Def, .phylum_formal_def), (.ph .Signature, .phylum_formal_sig)]),
      (.type_formal, "type_formal".toList, [(.ph .Def, .type_formal_def), (.ph .Signature, .type_formal_sig)]),
      (.seq_formal, "seq_formal".toList, [(.ph .Def, .seq_formal_def), (.ph .Type, .seq_formal_type)]),
      (.normal_formal, "normal_formal".toList, [(.ph .Def, .normal_formal_def), (.ph .Type, .normal_formal_type)]),
      (.pattern_renaming, "pattern_renaming".toList, [(.ph .Def, .pattern_renaming_def), (.ph .Pattern, .pattern_renaming_old)]),
      (.value_renaming, "value_renaming".toList, [(.ph .Def, .value_renaming_def), (.ph .Expression, .value_renaming_old)]),
      (.type_renaming, "type_renaming".toList, [(.ph .Def, .type_renaming_def), (.ph .Type, .type_renaming_old)]),
      (.signature_renaming, "signature_renaming".toList, [(.ph .Def, .signature_renaming_def), (.ph .Signature, .signature_renaming_old)]),
      (.module_renaming, "module_renaming".toList, [(.ph .Def, .module_renaming_def), (.ph .Module, .module_renaming_old)]),
      (.class_renaming, "class_renaming".toList, [(.ph .Def, .class_renaming_def), (.ph .Class, .class_renaming_old)]),
      (.pattern_replacement, "pattern_replacement".toList, [(.ph .Pattern, .pattern_replacement_pattern), (.ph .Pattern, .pattern_replacement_as)]),
      (.value_replacement, "value_replacement".toList, [(.ph .Expression, .value_replacement_value), (.ph .Expression, .value_replacement_as)]),
      (.type_replacement, "type_replacement".toList, [(.ph .Type, .type_replacement_type), (.ph .Type, .type_replacement_as)]),
      (.signature_replacement, "signature_replacement".toList, [(.ph .Signature, .signature_replacement_sig), (.ph .Signature, .signature_replacement_as)]),
      (.module_replacement, "module_replacement".toList, [(.ph .Module, .module_replacement_module), (.ph .Module, .module_replacement_as)]),
      (.class_replacement, "class_replacement".toList, [(.ph .Class, .class_replacement_class), (.ph .Class, .class_replacement_as)]),
      (.top_level_match, "top_level_match".toList, [(.ph .Match, .top_level_match_m)]),
      (.pragma_call, "pragma_call".toList, [(.leaf .symbol, .pragma_call_name), (.ph .Expressions, .pragma_call_parameters)]),
      (.polymorphic, "polymorphic".toList, [(.ph .Def, .polymorphic_def), (.ph .Declarations, .polymorphic_type_formals), (.ph .Block, .polymorphic_body)]),
      (.inheritance, "inheritance".toList, [(.ph .Def, .inheritance_def), (.ph .Type, .inheritance_used), (.ph .Block, .inheritance_body)]),
      (.pattern_decl, "pattern_decl".toList, [(.ph .Def, .pattern_decl_def), (.ph .Type, .pattern_decl_type), (.ph .Pattern, .pattern_decl_choices)]),
      (.constructor_decl, "constructor_decl".toList, [(.ph .Def, .constructor_decl_def), (.ph .Type, .constructor_decl_type)]),
      (.procedure_decl, "procedure_decl".toList, [(.ph .Def, .procedure_decl_def), (.ph .Type, .procedure_decl_type), (.ph .Block, .procedure_decl_body)]),
      (.function_decl, "function_decl".toList, [(.ph .Def, .function_decl_def), (.ph .Type, .function_decl_type), (.ph .Block, .function_decl_body)]),
      (.attribute_decl, "attribute_decl".toList, [(.ph .Def, .attribute_decl_def), (.ph .Type, .attribute_decl_type), (.ph .Direction, .attribute_decl_direction), (.ph .Default, .attribute_decl_default)]),
      (.value_decl, "value_decl".toList, [(.ph .Def, .value_decl_def), (.ph .Type, .value_decl_type), (.ph .Direction, .value_decl_direction), (.ph .Default, .value_decl_default)]),
      (.type_decl, "type_decl".toList, [(.ph .Def, .type_decl_def), (.ph .Signature, .type_decl_sig), (.ph .Type, .type_decl_type)]),
      (.phylum_decl, "phylum_decl".toList, [(.ph .Def, .phylum_decl_def), (.ph .Signature, .phylum_decl_sig), (.ph .Type, .phylum_decl_type)]),
      (.signature_decl, "signature_decl".toList, [(.ph .Def, .signature_decl_def), (.ph .Signature, .signature_decl_sig)]),
      (.module_decl, "module_decl".toList, [(.ph .Def, .module_decl_def), (.ph .Declarations, .module_decl_type_formals), (.ph .Declarations, .module_decl_value_formals), (.ph .Declaration, .module_decl_result_type), (.ph .Signature, .module_decl_parent), (.ph .Block, .module_decl_contents)]),
      (.class_decl, "class_decl".toList, [(.ph .Def, .class_decl_def), (.ph .Declarations, .class_decl_type_formals), (.ph .Declaration, .class_decl_result_type), (.ph .Signature, .class_decl_parent), (.ph .Block, .class_decl_contents)]),
      (.no_decl, "no_decl".toList, [])]
  | .Block => [(.block, "block".toList, [(.ph .Declarations, .block_body)])]
  | .Match => [(.matcher, "matcher".toList, [(.ph .Pattern, .matcher_pat), (.ph .Block, .matcher_body)])]
  | .Direction => [(.direction, "direction".toList, [(.leaf .boolean, .direction_is_input), (.leaf .boolean, .direction_is_collection), (.leaf .boolean, .direction_is_circular)])]
  | .Default => [(.no_default, "no_default".toList, []),
      (.composite, "composite".toList, [(.ph .Expression, .composite_initial), (.ph .Expression, .composite_combiner)]),
      (.simple, "simple".toList, [(.ph .Expression, .simple_value)])]
  | .Units => [(.nil_Units, "nil_Units".toList, []),
      (.list_Units, "list_Units".toList, [(.ph .Unit, .list_Units_elem)]),
      (.append_Units, "append_Units".toList, [(.ph .Units, .append_Units_l1), (.ph .Units, .append_Units_l2)])]
  | .Declarations => [(.nil_Declarations, "nil_Declarations".toList, []),
      (.list_Declarations, "list_Declarations".toList, [(.ph .Declaration, .list_Declarations_elem)]),
      (.append_Declarations, "append_Declarations".toList, [(.ph .Declarations, .append_Declarations_l1), (.ph .Declarations, .append_Declarations_l2)])]
  | .Matches => [(.nil_Matches, "nil_Matches".toList, []),
      (.list_Matches, "list_Matches".toList, [(.ph .Match, .list_Matches_elem)]),
      (.append_Matches, "append_Matches".toList, [(.ph .Matches, .append_Matches_l1), (.ph .Matches, .append_Matches_l2)])]
  | .Types => [(.nil_Types, "nil_Types".toList, []),
      (.list_Types, "list_Types".toList, [(.ph .Type, .list_Types_elem)]),
      (.append_Types, "append_Types".toList, [(.ph .Types, .append_Types_l1), (.ph .Types, .append_Types_l2)])]
  | .Expressions => [(.nil_Expressions, "nil_Expressions".toList, []),
      (.list_Expressions, "list_Expressions".toList, [(.ph .Expression, .list_Expressions_elem)]),
      (.append_Expressions, "append_Expressions".toList, [(.ph .Expressions, .append_Expressions_l1), (.ph .Expressions, .append_Expressions_l2)])]
  | .Patterns => [(.nil_Patterns, "nil_Patterns".toList, []),
      (.list_Patterns, "list_Patterns".toList, [(.ph .Pattern, .list_Patterns_elem)]),
      (.append_Patterns, "append_Patterns".toList, [(.ph .Patterns, .append_Patterns_l1), (.ph .Patterns, .append_Patterns_l2)])]
  | .Actuals => [(.nil_Actuals, "nil_Actuals".toList, []),
      (.list_Actuals, "list_Actuals".toList, [(.ph .Expression, .list_Actuals_elem)]),
      (.append_Actuals, "append_Actuals".toList, [(.ph .Actuals, .append_Actuals_l1), (.ph .Actuals, .append_Actuals_l2)])]
  | .TypeActuals => [(.nil_TypeActuals, "nil_TypeActuals".toList, []),
      (.list_TypeActuals, "list_TypeActuals".toList, [(.ph .Type, .list_TypeActuals_elem)]),
      (.append_TypeActuals, "append_TypeActuals".toList, [(.ph .TypeActuals, .append_TypeActuals_l1), (.ph .TypeActuals, .append_TypeActuals_l2)])]
  | .PatternActuals => [(.nil_PatternActuals, "nil_PatternActuals".toList, []),
      (.list_PatternActuals, "list_PatternActuals".toList, [(.ph .Pattern, .list_PatternActuals_elem)]),
      (.append_PatternActuals, "append_PatternActuals".toList, [(.ph .PatternActuals, .append_PatternActuals_l1), (.ph .PatternActuals, .append_PatternActuals_l2)])]

end Aps.Ast

# Formal model of boyland/aps in Lean 4 — design

## Method

* `lean/Verif/Model/*.lean` — total, computable Lean functions that follow the C/C++ text of
  `/repo` function by function.  Each definition cites file and lines.  Loops whose termination is
  not evident are run with *fuel*; a theorem then shows which amount of fuel suffices (so the C loop
  terminates) or that no run with any amount of fuel has the bad outcome.
* Undefined behaviour, `exit(1)`, `fatal_error`, thrown exceptions and running out of fuel are distinct outcomes.
* `lean/Verif/Proofs/*.lean` — helper lemmas and invariants.
* `lean/Verif/Props/*.lean` — one file per area with the property theorems (named `Cnn_...`), the small
  independent specification they use, and `example`s showing their hypotheses can be met.
* Where the code violates the property, the property's negation is proved with a concrete
  witness (`Cnn_..._refuted`) and what does hold is proved as `Cnn_..._partial`.

## Trusted base

* Lean 4.33.0 kernel; axioms `propext`, `Classical.choice`, `Quot.sound` at most (no `native_decide`,
  no `bv_decide`, no axioms of our own).
* The correspondence between the Lean definitions and the C/C++/Scala/APS text, which was established by
  reading; the comments give the exact lines and every simplification.

## Plan per property

| id | model | proof |
|----|-------|-------|
| C01 | prime table state, sieve loops, scan loop with growth | sieve invariant; scan minimality; fuel bound from existence of a twin prime |
| C02 | probe loop with fuel | step coprime to the prime capacity; pigeonhole; load <= 1/2 invariant over histories |
| C03 | whole table incl. resize | refinement to a finite map by the probe-chain invariant |
| C04 | remove | refuted by a witness; partial: what survives |
| C05 | hash-cons table over a heap of addresses | probe-chain invariant, identity stable |
| C06 | set construction over address lists | sortedness + merge lemmas on top of C05 |
| C07, C08 | closure loop, DFS, transpose, collection | closure invariant, DFS finishing-order invariant |
| C09 | vertex registration over the hash table of C03 | invariant |
| C10 | linked stack | refinement to a list |
| C11, C12 | symbol array | invariant |
| C13 | chunk/bump allocator | invariant over histories |
| C14 | rope trees, both type tags | structural induction; integer strings refuted |
| C15 | alist/table | induction |
| C16 | 32-bit words | bit-level extensionality |
| C17 | kind words | finite algebra over 5 bits, lifted |
| C18-C20 | edge sets, add_edge, worklist closure | denotation under an assignment; strictly growing measure |
| C21 | matrix closure | least-closed-matrix argument |
| C22, C23 | analysis state | invariant of the iteration |
| C24 | nested conditionals | structural induction |
| C25 | phase loop | loop invariant |
| C26 | schedule_rest | induction on the schedule tree |
| C27 | phase counters | witness / bound |
| C28 | union-find | invariant: parents form a forest |
| C29, C30 | canonical types | structural induction |
| C31 | fiber sets | invariant over histories |
| C32-C36 | attribute state machines of aps-impl.h | big-step semantics, invariants |
| C37-C41 | value types of the runtime | equations against List/Finset |
| C42, C43 | lattice modules | algebra |
| C44 | Scala runtime | invariants |
| C45 | direction functions | case analysis |
| C46 | phylum/node creation and `finish` of the C++ runtime | invariant over histories |
| C47 | the text of a dynamic evaluator as a term language; emitter and interpreter for C++ and Scala | simulation between the interpreter of the emitted code and the meaning of the equations |
| C48 | OAG: DNC state, phases, intra-phase links, closing, conditional total order | composition of C23, C25, C26 through a pair invariant of the main loop |
| C49 | `break_fiber_cycles` | exact effect of a pass; refutations by witness |
| C50 | `doOU`, `doUO`, `doUOp`, `compute_OU` and the loop of `fiber_module` | soundness as an invariant of every update; completeness because the last round changes nothing |
| C51–C55 | Scala library values | equations against `List`/`Finset`/maps, refutations |
| C56 | Scala evaluation after a failure | invariant over histories of demands |
| C57 | module variables | history lemma |
| C58 | `aps-bind.c`: environments, scopes, use binding | independent scope relation; both directions by induction on the program |
| C59 | static scheduler for circular grammars: chunks, SCC of chunks, recursion | invariant of the recursive scheduler |
| C60 | visit procedures emitted by `static-impl.cc`, run on trees | walk invariant; uniqueness of the solution |
| C61 | `DECL_NEXT` links | traversal combinators |
| C62 | `get_edges`, `record_*_dependencies`, `get_instances`, `get_match_tests` | simulation between the traversal and a relation "rule reads" |
| C63 | `add_FSA_edge`, `beclose`, `makeNode`, `get_same`, `check_transition`, `makeDFA`, `DFA_fiber_set`, `longer`, `dep_modifier_fiber` | each node means a word: invariant over the worklist; ancestors with different keys bound the depth |
| C64 | `id_decl_node`, `id_expr_node`, `count_node`, `nodeset_union`, `set_of_node`, `link_expr_rhs`, `link_expr_lhs`, `link_expr_lhs_p`, `build_FSA`, `fiber_module` | a fiber is defined by what is read and assigned in the program (Spec/Fsa, four mutual relations); each relation gives an accepting run of the automaton, by induction; tails of fibers are fibers, so C63 applies |
| C65 | the passes of C48, C54, C60 in a row: `dnc_close`, `compute_oag`, `attribute_schedule`, `dump_visit_functions`, and running the code on a tree | from what C48 says about the total orders and C52/C53 about summaries follow the hypotheses of C60: phases ordered, the shared info first, what is read comes before |
| C66 | C65 with the graphs made by `init_augmented_dependency_graph` from the equations | Spec/Source says what a grammar is; the graph of C62 is shown to have the edges C65 asks for, numbering and conditions of conditionals included |
| C67 | `do_typechecking`, `infer_expr_type`, `check_expr_type`, `check_actuals`, `infer_pattern_type`, `check_pattern_type`, `check_pattern_actuals`, `check_type_subst`, `check_type_signatures`, `type_subst` | slots of environments are filled once, so what unification finds stays true; the state at the end gives the replacements and the types of the variables of a typing derivation (Spec/TypeCheck: declarative rules) |
| C68 | `base_type`, `base_type_equal`, `check_type_equal` | normal forms: unique, invariant under the declarative equality, and computed by the code |
| C69 | as C67 | induction on typing derivations, up to equality of types, with enough fuel |
| C70 | patterns and actions of aps.lex | derivatives give the longest match (proved against the declarative meaning of regular expressions); each rule is classified by the characters it may contain; what matches a token and a blank matched the token before |
| C71 | as C70 | a rule whose text ends with a hyphen needs another character after it; the comment is the longest match |
| C72 | as C70 | which rules can match a newline; induction on the pieces |
| C73 | `make_code_name`, `translate`, the action of `_` | the translation is injective on the characters of operators; decimal numbers are |
| C74 | `symbol_token`, `init_lexer_tables`, with the symbol table of C11 | the first names of the table stay, and names are distinct |
| C75 | expressions of aps.y, with bison's resolution of conflicts, as a machine with a stack of operators | invariants of the stack give soundness; a tree that respects precedence drives the machine to itself (completeness); a measure bounds the fuel |
| C76 | as C75, and the actions | from C75: the trees respect precedence |
| C77 | `fixity`, `set_infix`, `get_infix`, with C75 | induction on units: the table is what was declared |
| C78 | `public`, `constant` in the actions for declarations | mutual induction on declarations and bodies against a definition with scopes |
| C79 | `make_implicit_name` | the last underscore separates the number; decimal numbers are injective |
| C80 | `find_Program`, and `bind_Program`, `type_Program`, `main` as far as they read files | depth-first search: flags bound the depth (at most 100 programs); what is newly checked has all it needs checked; names are distinct |
| C81 | `make_instance_assignment`, `implement_visit_function` of static-scc-impl.cc | what is written only grows; without conditionals the sets of expressions are the equations |
| C82 | the same, with the meaning of the printed Scala code (`StaticCircularEvaluation`) | the code is a flat list of settings and loops of settings; a loop that ends has a last round without changes, so its equations hold; values stay below every solution (Kleene), and rise in every round |
| C83 | `OutputWriter`, `implement_visit_function`, `dump_visit_functions` | induction on the total order: what is written is the rest of a loop, or code |
| C84 | the chunk scheduler (C59), the printed procedures (C81, C83) and their meaning (C82), together | the tree of a schedule without conditionals is the tree of its parts in order, phase by phase; from the order of the parts (C59) each condition on plans follows |
| C85 | `canonical_type`, the joins and the base type over programs whose uses are bound, with fuel | types by path as an independent meaning of type expressions; by induction on the fuel every join keeps the meaning and gives a normal form; the meaning is a function of the expression and injective on normal forms; five counterexamples in the program of examples/test-canonicals.aps |
| C86 | signatures as objects of a hash-cons table over addresses of types; comparison and the insertion sort of the printer | instance of C05; comparison is a lexicographic total preorder by C30, so the sort gives a sorted permutation, which is unique if only identical signatures compare as 0 |
| C87 | signatures as terms; the mutually recursive inference with fuel, over the types of C85 | more fuel never changes a result; the three nested loops replace all formals at once; a potentially infinite chain of base types as counterexample to ending |
| C88 | the switch statements of aps-traverse.c as tables extracted by `tools/gen_ast.py` (which consumes every line of the C files), one generic function over them; the grammar as a table extracted from aps-tree.aps | the tables agree with the grammar for every constructor (a complete finite check in the kernel); induction on trees |
| C89 | the same for aps-tree-dump.c, with the handwritten printing of symbols and strings; a Lisp reader as specification | induction on trees: what is printed for a child is one blank and one expression for the reader |
| C90 | constructor, accessor, `_KEY` and copy functions of aps-tree.c as tables, with `create_tnode` | tables agree with the grammar; induction on the calls for the grammar invariant, on trees for copies |
| C91 | `ServiceRecord` and the three mutually recursive transfer functions of dump-scala.cc with fuel, on a program of numbered declarations | the run is one fold over a list of declarations whose members are those of an inductive relation `Offers`; invariant of the fold for the record and the lines; accessibility for the end |
| C92 | `type_services`, `inst_services`, `signature_services` of aps-bind.c with fuel, on a program of numbered declarations with the set of modules bound so far | the frames of a type as an inductive relation; both directions by induction (on fuel, on the derivation); composed with C58 |
| C93 | `dump_Pattern`, `dump_pattern_call` of dump-scala.cc with the global `formal_count`, printing a tree for the text; what Scala accepts as a pattern, and what a pattern does with the generated extractors | mutual structural induction over patterns, against `pmatch` (the meaning of patterns of C47); composed with C47 |
| C94 | `dump_Expression`, `dump_collect_Actuals` of both generators, printing a tree for the text; what integer literals mean in C++ and Scala | the value of an expression as an inductive relation; mutual structural induction |
| C95 | `analyze_thing` over the models of its passes; `main` of both compilers as a function from the arguments and what reading, binding and typing find | command lines as an inductive relation on words; invariant between the options read and the global variables |
| C96 | `set_aps_path`, `aps_open`, `filebase`, with pointers as rests of strings and buffers with a capacity | induction on the number of colons, on the path |
| C97 | `dump_TypeDecl_Traits` and the members of `dump_some_class_decl`, on the canonical signatures that were inferred | the loops are one fold of C91's step over the declarations of the public classes; C91's invariants |
| C98 | `set_tnode_parent` as a callback of the traversal of C88; the rule accessors of aps-ag-util.c on the tree, with `parent`, `next` and `use_decl` as fields by address | induction over trees for the parents; the loop over the right-hand side by induction over the variables, in both directions |
| C99 | the switches of parse/aps-util.c as tables extracted from the source; the patterns of aps-tree.aps as tables extracted from the grammar; the stack loop of `FOR_SEQUENCE` | the functions by evaluation over all constructors in the kernel, for nodes with any children; the loop by induction over the tree, for any stack below |
| C100 | the pass noting local attributes, the names of their objects, the walk up from a local printing the bindings of the matches around it, the function of a local | numbering by mutual induction; names by injectivity of decimal numbers with a separator; the function: induction over the path from the rule to the block of the local, then the C47 theorem for blocks |
| C101 | what is printed for a function declaration (body, default, or nothing), `implement_function_body`, a call with bound arguments; programs of functions as families over an interpretation of the functions, unfolded to any depth | one level by the C47 theorem for blocks; any depth by induction, with an arbitrary result below (so a value that does not depend on it is that of the recursion) |
| C102 | what is printed around the declarations of a program: guard, `#define`, includes, object and imports; the C preprocessor on such files, with includes read in place | an invariant of the preprocessor's state (which headers are begun, which are being read), by induction on the number of headers not begun and on the units; character by character for names |
| C103 | `ServiceRecord`, `dump_Signature_service_transfers`, `dump_Type_service_transfers` and `dump_Type_superclass` of dump-cpp.cc, on the signatures and types of C91 | the search is a fold over the declarations that a relation without order describes; an invariant of the record and the typedefs over that fold |
| C104 | what dump-cpp.cc and dump-scala.cc print for a constructor (its class, its function, its tag) and the run-time system that this code calls: `set_parent`, `install`, `register`, `Nodes.add` | invariants over histories of calls, relating the member `parent` to the fields of all nodes, and the lists of phyla to the numbers of nodes |
| C105 | `dump_some_attribute` of dump-cpp.cc and dump-scala.cc, setters of input variables, and the classes of the run-time systems that are extended: `Evaluation`, `CollectionEvaluation`, `CircularEvaluation`; `Attribute`, `Collection` | the class that is printed is shown to have what the declaration says; then an invariant of the instance over sequences of operations, against a specification that has only the history |
| C106 | the order in which both generators initialize the members of the class of a module (types first in C++), and running the initializers | induction over the members against equations that all members have to solve; uniqueness of solutions in order of use |
| C107 | the initialization of `t_T` and the functions `get_T` for top-level types, with C++ `static` variables | an invariant of the heap and of both kinds of variables over nested calls; definedness by induction on the rank of types |
| C108 | global variables for top-level values, and how C++ initializes them | the order is shown to respect uses, for every permutation of files; then as C106 |
| C109 | the object of each file for top-level values, and how Scala initializes objects when they are used | an invariant of finished objects by rank of files, over nested initializations; objects that are in progress are framed |

A property whose full statement is false of the code keeps its statement in `properties.jsonl`; the
negation is a theorem `_refuted`, what holds is `_partial` (or, where the defect is outside the
statement, a plain theorem).

## Modelled / not modelled

| file | modelled in | left out |
|------|-------------|----------|
| utilities/prime.c, hashtable.c, hashcons.c, scc.c, stack.c | `Prime`, `HashTable`, `HashCons`, `Scc` | malloc failure; the hash functions themselves are arbitrary parameters (except where their value matters) |
| parse/alloc.c, jbb-alloc.h | `Alloc` | real malloc (its contract is a hypothesis) |
| parse/symbol.c, string.c | `Symbol`, `Rope` | stdio output functions |
| parse/aps.lex | `Lex` | what flex makes of the patterns is trusted (longest match, first rule, trailing context); infix kinds of operators |
| parse/aps.y | `Parse`: expressions, fixity, flags, implicit names | bison is trusted (conflicts resolved by levels); types, patterns, statements, sequences, error recovery |
| parse/aps-tree.c, tree.i, aps-traverse.c, aps-tree-dump.c, aps-tree.aps | `AstTables` (extracted), `Ast` | the `info` area, malloc failure, text of errors; what is printed before a stop |
| parse/aps-util.c, aps-util.h (`FOR_SEQUENCE`) | `Util`, `UtilTables` | the dead macro `KEYsome_use` (names a `KEYsignature_use` that does not exist) |
| analyze/alist.c, table.c | `Alist` | — |
| analyze/aps-bind.c | `Bind`, `Next`, `Qual` (services of types) | error text; the memo of services |
| analyze/aps-cond.c, aps-dnc.c | `Dnc` (edge sets, graphs, closure, iteration), `IfCond` (numbering of conditions), `EdgeGen` (instances, edges from rules) | printing; edges between fibers are those of `EdgeGen` for given fibers |
| analyze/aps-fiber.c | `Fiberset` (fiber sets and worklist), `Points` (object and use sets), `Fsa` (numbering, `build_FSA`), `Dfa` (the fiber automaton and tree) | the walk that lists declarations and uses is given as a list; dead worklist code (1130-1330) |
| analyze/aps-fiber-callsite.c, aps-fiber-AI.c | — | not modelled: no Makefile compiles them |
| analyze/aps-oag.c | `Oag` | debug printing |
| analyze/aps-scc.c, aps-schedule.c | `Phase`, `Chunk` | printing |
| analyze/aps-cycle.c | `Cycle` | printing |
| analyze/aps-analyze.c, apscpp/apscpp.cc, aps2scala/aps2scala.cc, aps_error/aps_check_error/set_debug_flags | `Driver` (the passes are those of `Dnc`, `Cycle`, `Oag`) | analyze/apsc.c; what the letters after -D print |
| analyze/canonical-type.c, canonical-signature.c | `CType` (construction, equality, hash, order), `CanonTy` (canonical types of type expressions, base type, join), `CSig` (signatures: identity, order, printing), `SigInfer` (inference) | the size of the `alloca` buffers |
| analyze/aps-type.c | `TypeCheck` | modules, qualified uses, renamings, functions with several results, `ensure_non_var_use`; the first error stops the model |
| analyze/aps-read.c | `Read`, `Path` (the search path, names of files) | — |
| analyze/aps-info.c, aps-ag-util.c | `Rule` (direction functions of aps-info.h/aps-dnc.c in `Oag`) | — |
| base/cpp/aps-impl.h, .cpp | `Runtime`, `Str` | debug output |
| base/cpp/basic.handcode.*, table.handcode.h, base/basic.aps, flat.aps, table.aps | `Coll`, `Str`, `Table`, `Lattice` | string I/O |
| base/scala/*.scala | `ScalaEval`, `ScalaLib`, `Table`, `Lattice` | Scala standard library (its documented behaviour is assumed) |
| apscpp/dyn-impl.cc, aps2scala/dyn-impl.cc | `DynGen` | — |
| codegen/static-impl.cc | `Static`, `Pipeline` (how phases get there), `Source` (productions as the analysis sees them) | fibers (field writes), text layout |
| codegen/static-scc-impl.cc | `SccGen` | for-in statements, functions, instances of the module, comments |
| apscpp/dump-cpp.cc, aps2scala/dump-scala.cc | the expression/pattern part used by `DynGen`; patterns of dump-scala.cc (`ScalaPat`); expressions (`ExprGen`); the service transfers of dump-scala.cc (`Service`); the traits of instances in dump-scala.cc (`Traits`); local attributes (`Locals`); functions (`Func`); guards, includes and imports (`Layout`); typedefs and superclass of C++ modules (`CService`); nodes and constructors (`Nodes`); classes of attributes (`Start`); order of members (`Consts`); top-level types and values (`TopTypes`, `TopVals`, `Objects`) | the rest of class and signature dumping |

General simplifications: C `int` arithmetic is modelled with overflow only where a property is about it
(C27, C37, C39, C52, C53); memory is a heap of addresses where sharing or reuse matters (C05, C06, C11,
C13, C15) and plain values elsewhere.

## Defects noticed by reading, outside any theorem

* aps-oag.c:336 debug loop runs to `i<=n`; aps-schedule.c: scc with no vertices exits.
* closeAugmentedDependencyGraph reports "unchanged" when only the summary was raised.
* record_lhs_dependencies uses an uninitialised `decl` for local calls; the result edge of a local call uses
  `kind` where `new_kind` was computed; formals of case patterns get no condition.
* basic.handcode.h subseq_from_end uses `l-finish` on pointers; V_empty_table::as_full returns a temporary.
* aps-type.c: `KEYsome_class_decl:` is written without `case` (a label); `remote T` passes for `T`; a loop over something without elements passes if the variable is not used.
* canonical_type_base_type falls from the QUAL case into the FUNC case; for a qualified alias it drops the source; the base
  type of an instance of an `extends T` module is the canonical actual, not its base type; phylum formals have no canonical type.
* canonical-signature.c: `alloca(canonical_sig->num_actuals)` allocates bytes, not pointers; the parent signature of a class is read but not used.

## Findings proved as refutations

Each is a theorem with a concrete witness; the manifest note of the property says what holds instead.

* **C04**: `C04_remove_exact_refuted`
* **C06**: `C06_array_high_address_refuted`, `C06_array_with_duplicates_refuted`
* **C09**: `C09_null_edge_refuted`
* **C10**: `C100_hidden_refuted`, `C101_collection_refuted`, `C101_result_refuted`, `C102_directory_refuted`, `C102_guards_refuted`, `C102_objects_refuted`, `C103_extends_refuted`, `C103_module_refuted`, `C103_renaming_refuted`, `C104_instance_refuted`, `C104_nil_refuted`, `C104_renaming_refuted`, `C104_root_refuted`, `C104_shared_refuted`, `C104_type_refuted`, `C105_bottom_refuted`, `C105_circular_refuted`, `C105_combiner_refuted`, `C105_late_refuted`, `C105_local_refuted`, `C105_simple_refuted`, `C106_order_refuted`, `C106_scala_types_refuted`, `C106_types_refuted`, `C107_cycle_refuted`, `C107_notype_refuted`, `C107_renaming_refuted`, `C108_files_refuted`, `C108_later_refuted`, `C109_files_refuted`, `C109_later_refuted`
* **C14**: `C14_integer_refuted`
* **C18**: `C18_incomparable_refuted`
* **C24**: `C24_for_refuted`
* **C27**: `C27_bounds_refuted`
* **C29**: `C29_null_refuted`
* **C30**: `C30_same_line_refuted`
* **C34**: `C34_get_does_not_protect_refuted`
* **C36**: `C36_least_fixpoint_refuted`
* **C37**: `C37_butlastn_long_refuted`, `C37_firstn_negative_refuted`, `C37_string_shape_refuted`
* **C38**: `C38_length_bag_refuted`
* **C39**: `C39_min_refuted`
* **C40**: `C40_butlast_refuted`, `C40_butlast_short_refuted`, `C40_butsubseq_past_end_refuted`, `C40_lastn_refuted`, `C40_position_from_end_refuted`, `C40_subseq_refuted`
* **C42**: `C42_cpp_refuted`
* **C43**: `C43_max_bottom_refuted`, `C43_max_nan_refuted`
* **C44**: `C44_least_fixpoint_refuted`, `C44_null_refuted`
* **C47**: `C47_cpp_for_in_refuted`, `C47_last_pattern_refuted`, `C47_scala_for_refuted`, `C47_scala_no_default_refuted`, `C47_skipped_match_refuted`
* **C49**: `C49_condition_refuted`, `C49_no_cycle_left_refuted`
* **C50**: `C50_attr_default_refuted`
* **C51**: `C51_bag_order_refuted`, `C51_lastn_butlast_refuted`, `C51_position_from_end_refuted`, `C51_range_negative_refuted`, `C51_range_overflow_refuted`, `C51_string_firstn_refuted`, `C51_string_position_from_end_refuted`, `C51_string_position_refuted`
* **C52**: `C52_minus_one_zero_refuted`, `C52_negative_refuted`, `C52_overflow_refuted`
* **C53**: `C53_scala_odd_refuted`, `C53_scala_refuted`
* **C54**: `C54_order_refuted`
* **C56**: `C56_no_value_refuted`, `C56_same_failure_refuted`
* **C57**: `C57_repeat_refuted`
* **C58**: `C58_empty_refuted`, `C58_hiding_refuted`, `C58_poly_refuted`
* **C59**: `C59_complete_refuted`, `C59_entry_refuted`, `C59_instances_refuted`, `C59_recursion_refuted`
* **C60**: `C60_contributions_refuted`, `C60_dispatch_refuted`, `C60_inherited_only_refuted`, `C60_recursive_start_refuted`
* **C62**: `C62_collection_refuted`, `C62_local_refuted`
* **C63**: `C63_follow_refuted`, `C63_range_refuted`
* **C64**: `C64_chain_refuted`, `C64_copy_refuted`, `C64_empty_refuted`, `C64_shared_refuted`
* **C66**: `C66_inherited_only_refuted`
* **C67**: `C67_crash_refuted`, `C67_loop_variable_refuted`, `C67_named_pattern_refuted`, `C67_typed_pattern_refuted`
* **C69**: `C69_guard_refuted`
* **C70**: `C70_unterminated_refuted`
* **C71**: `C71_operator_at_end_refuted`, `C71_operator_before_comment_refuted`
* **C72**: `C72_escaped_newline_refuted`
* **C73**: `C73_long_operator_refuted`, `C73_wildcards_refuted`
* **C76**: `C76_minus_refuted`
* **C77**: `C77_file_alone_refuted`
* **C78**: `C78_constant_refuted`
* **C79**: `C79_files_refuted`
* **C80**: `C80_directories_refuted`, `C80_operators_refuted`
* **C81**: `C81_collection_refuted`, `C81_default_refuted`
* **C82**: `C82_cpp_refuted`, `C82_first_refuted`, `C82_locals_refuted`
* **C85**: `C85_direct_result_refuted`, `C85_global_qual_refuted`, `C85_nested_qual_refuted`, `C85_nested_result_refuted`, `C85_three_levels_refuted`
* **C86**: `C86_order_refuted`
* **C87**: `C87_ends_refuted`, `C87_swap_refuted`
* **C89**: `C89_past_end_refuted`, `C89_tab_refuted`
* **C90**: `C90_copy_line_refuted`
* **C91**: `C91_TYPE_refuted`, `C91_constructor_refuted`, `C91_phylum_refuted`, `C91_procedure_refuted`, `C91_renaming_refuted`, `C91_src_refuted`
* **C92**: `C92_forward_refuted`, `C92_parent_refuted`, `C92_phylum_refuted`, `C92_plain_refuted`
* **C93**: `C93_history_refuted`, `C93_literal_refuted`, `C93_nameless_refuted`, `C93_operator_refuted`, `C93_reset_refuted`
* **C94**: `C94_large_refuted`, `C94_octal_refuted`, `C94_stopper_refuted`
* **C95**: `C95_each_cycle_refuted`, `C95_overrun_refuted`, `C95_unwritable_refuted`
* **C96**: `C96_empty_refuted`
* **C97**: `C97_constructor_refuted`, `C97_procedure_refuted`
* **C98**: `C98_shared_refuted`

## Axioms each manifest theorem depends on

Generated by `tools/axioms.py` (`#print axioms`).

* **none** (19): `C105_bottom_refuted`, `C105_local_refuted`, `C106_scala_types_refuted`, `C32_meaning_unique`, `C37_append`, `C37_butlastn_long_refuted`, `C37_firstn_negative_refuted`, `C38_length_bag_refuted`, `C39_min_refuted`, `C40_position_from_end_refuted`, `C51_lastn_butlast_refuted`, `C53_scala_refuted`, `C54_order_refuted`, `C55_meaning_refuted`, `C55_select`, `C61_unique`, `C78_constant_refuted`, `C79_files_refuted`, `C96_empty_refuted`

* **propext** (81): `C04_duplicate_after_remove`, `C09_null_edge_refuted`, `C100_env`, `C101_collection_refuted`, `C101_result_refuted`, `C102_directory_refuted`, `C102_guards_refuted`, `C102_objects_refuted`, `C103_extends_refuted`, `C103_module_refuted`, `C103_renaming_refuted`, `C104_instance_refuted`, `C104_nil_refuted`, `C104_renaming_refuted`, `C104_root_refuted`, `C104_shared_refuted`, `C104_type_refuted`, `C105_circular_refuted`, `C105_combiner_refuted`, `C105_late_refuted`, `C105_simple_refuted`, `C106_defined_partial`, `C106_order_refuted`, `C108_files_refuted`, `C108_later_refuted`, `C10_pop_push`, `C29_null_refuted`, `C30_same_line_refuted`, `C34_get_does_not_protect_refuted`, `C37_empty`, `C37_string_shape_refuted`, `C41_argument_unchanged_refuted`, `C42_applyf1`, `C42_applyf1_monotone`, `C42_applyf2`, `C42_applyf2_monotone`, `C42_lift`, `C42_order`, `C42_scala_join`, `C43_max`, `C43_max_nan_refuted`, `C43_min`, `C44_least_fixpoint_refuted`, `C44_null_refuted`, `C45_invert`, `C47_cpp_for_in_refuted`, `C47_last_pattern_refuted`, `C47_scala_for_refuted`, `C47_scala_no_default_refuted`, `C47_skipped_match_refuted`, `C51_bag_order_refuted`, `C51_butfirst`, `C51_butfirstn`, `C51_butsubseq`, `C54_string_irrefl`, `C55_symbol_order_refuted`, `C56_no_value_refuted`, `C56_same_failure_refuted`, `C57_repeat_refuted`, `C58_hiding_refuted`, `C58_poly_refuted`, `C67_crash_refuted`, `C67_loop_variable_refuted`, `C67_typed_pattern_refuted`, `C77_file_alone_refuted`, `C77_given`, `C78_public`, `C83_unique`, `C86_order_refuted`, `C87_swap_refuted`, `C90_copy_line_refuted`, `C91_TYPE_refuted`, `C91_constructor_refuted`, `C91_renaming_refuted`, `C91_src_refuted`, `C92_parent_refuted`, `C92_phylum_refuted`, `C94_octal_refuted`, `C94_stopper_refuted`, `C96_dirs_unique`, `C97_constructor_refuted`

* **propext, Quot.sound** (175): `C100_hidden_refuted`, `C100_numbers`, `C101_results`, `C102_guards_partial`, `C102_imports`, `C102_objects_partial`, `C103_ends`, `C104_closed`, `C104_fields`, `C104_made`, `C104_one_parent`, `C104_order_scala`, `C104_scala`, `C104_stays`, `C105_cpp_partial`, `C105_same_partial`, `C105_scala_partial`, `C105_vars_partial`, `C106_cpp`, `C106_ends`, `C106_same`, `C106_scala_partial`, `C107_cycle_refuted`, `C107_get`, `C107_notype_refuted`, `C107_objects`, `C107_order`, `C107_renaming_refuted`, `C107_starts_partial`, `C108_ends`, `C108_linked_partial`, `C108_values_partial`, `C109_ends_partial`, `C109_files_refuted`, `C109_later_refuted`, `C109_reads_partial`, `C109_values_partial`, `C10_lifo`, `C13_disjoint`, `C13_inside_aligned`, `C13_release`, `C13_succeeds`, `C14_build`, `C14_integer_refuted`, `C14_length`, `C14_substitute`, `C15_acons`, `C15_lists_end`, `C18_incomparable_refuted`, `C22_report`, `C24_for_refuted`, `C27_bounds_refuted`, `C31_no_duplicates`, `C36_least_fixpoint_refuted`, `C36_never_above_partial`, `C37_first_last`, `C37_length`, `C37_length_overflow`, `C37_nth`, `C37_nth_from_end`, `C38_difference`, `C38_equal`, `C38_expr`, `C38_intersect`, `C38_length`, `C38_less_equal`, `C38_member`, `C38_no_duplicates`, `C38_union`, `C40_butlast_short_refuted`, `C40_butsubseq_past_end_refuted`, `C40_firstn`, `C40_nth`, `C40_nth_from_end`, `C40_subseq_value`, `C41_select`, `C42_cpp_refuted`, `C43_and`, `C43_max_bottom_refuted`, `C43_or`, `C44_below_every_solution`, `C46_fresh_index`, `C46_refused`, `C49_no_cycle_left_refuted`, `C49_scc_unchanged`, `C51_bag_equal`, `C51_butnth`, `C51_firstn`, `C51_length`, `C51_multiset_combine`, `C51_multiset_difference`, `C51_multiset_equal`, `C51_multiset_intersect`, `C51_multiset_less_equal`, `C51_multiset_union`, `C51_nth`, `C51_nth_from_end`, `C51_position_from_end_refuted`, `C51_range`, `C51_sequence`, `C51_sequence_nth`, `C51_string_butsubseq`, `C51_string_nth_from_end`, `C51_string_position_from_end_refuted`, `C51_string_position_refuted`, `C51_subseq`, `C52_minus_one_zero_refuted`, `C52_negative_refuted`, `C52_overflow_refuted`, `C53_power`, `C53_power_negative`, `C54_int_char_code`, `C54_string_less_equal`, `C54_string_total`, `C54_string_trans`, `C55_combine`, `C55_compare_equal`, `C55_meet`, `C56_failure_persists_partial`, `C58_namespaces`, `C60_contributions_refuted`, `C60_dispatch_refuted`, `C61_frame`, `C61_iterate`, `C62_collection_refuted`, `C62_local_refuted`, `C63_follow_refuted`, `C63_range_refuted`, `C68_equality_sound`, `C69_guard_refuted`, `C78_constant_partial`, `C80_directories_refuted`, `C80_operators_refuted`, `C81_collection_refuted`, `C81_default_refuted`, `C83_balanced`, `C83_cpp`, `C83_prints`, `C85_unique`, `C87_base`, `C87_deterministic`, `C87_ends_refuted`, `C87_instance_partial`, `C88_once`, `C88_reached`, `C88_skip`, `C88_traverse`, `C89_text`, `C90_construct`, `C90_copy`, `C90_made`, `C90_wrong_accessor`, `C91_ends_partial`, `C91_phylum_refuted`, `C92_forward_refuted`, `C92_own`, `C92_plain_refuted`, `C92_services`, `C93_history_refuted`, `C93_literal_refuted`, `C93_nameless_refuted`, `C93_reset_refuted`, `C93_rule`, `C95_each_cycle_refuted`, `C96_name`, `C97_procedure_refuted`, `C97_traits`, `C98_constructor`, `C98_parents`, `C98_refused`, `C98_rule`, `C98_shared_refuted`, `C99_field`, `C99_for`, `C99_use`

* **propext, Classical.choice, Quot.sound** (324): `C01_history_independent`, `C01_result`, `C01_safe`, `C01_table`, `C01_terminates`, `C02_add_returns`, `C02_load`, `C02_lookup_returns`, `C02_probe_covers`, `C03_map`, `C03_size`, `C03_size_ptr`, `C04_first_remove_partial`, `C04_no_invented_value_partial`, `C04_remove_exact_refuted`, `C04_removed_is_absent_partial`, `C05_content`, `C05_returns`, `C05_same_address_iff_equal`, `C06_array_high_address_refuted`, `C06_array_with_duplicates_refuted`, `C06_canonical`, `C06_elements`, `C07_components_exact`, `C08_topological`, `C09_add_edge_partial`, `C09_add_vertex`, `C09_index`, `C100_cpp_partial`, `C100_names`, `C100_scala`, `C100_use`, `C101_cpp_partial`, `C101_scala_partial`, `C102_includes`, `C103_cover_partial`, `C103_once`, `C103_only`, `C104_cpp_partial`, `C104_numbers`, `C104_order_cpp`, `C104_tags`, `C106_types_refuted`, `C11_find`, `C11_ids`, `C11_name`, `C11_same_symbol`, `C11_succeeds`, `C12_ends`, `C12_fresh`, `C14_realize`, `C15_assoc`, `C15_rassoc`, `C15_setassoc`, `C15_table_get`, `C15_table_set`, `C16_compare`, `C16_merge`, `C17_indirect`, `C17_join`, `C17_trans`, `C17_trans_meaning`, `C18_add_edge`, `C18_kind_bounds`, `C19_any_order`, `C19_terminates_closed`, `C20_exact`, `C20_exact_any_order`, `C20_nothing_spurious`, `C21_exact`, `C21_least_closed`, `C22_after_closure`, `C23_fixpoint`, `C23_nothing_spurious`, `C24_exclusive`, `C24_nested`, `C24_numbering`, `C24_reaches`, `C25_schedule`, `C25_succeeds_iff`, `C26_exact`, `C26_path`, `C26_succeeds_iff`, `C27_bounds_partial`, `C27_graph`, `C27_schedule`, `C27_total`, `C28_fiber_cycles`, `C28_history`, `C28_make_cycles`, `C29_canonical`, `C29_content`, `C29_equal_hash`, `C29_equal_symm_trans`, `C30_identity_partial`, `C30_total_preorder`, `C31_exactly_once`, `C31_intersection`, `C31_membership`, `C31_worklist`, `C32_complete`, `C32_once`, `C32_value`, `C33_cycle_throws`, `C33_ends`, `C33_reason`, `C34_refused`, `C34_stable`, `C35_combined`, `C35_default`, `C36_self_partial`, `C37_butfirst`, `C37_butlast`, `C37_butnth`, `C37_butsubseq`, `C37_butsubseq_from_end`, `C37_equal`, `C37_firstn`, `C37_member`, `C37_partition`, `C37_position`, `C37_position_from_end`, `C37_string`, `C37_subseq`, `C38_less`, `C39_injective`, `C39_string`, `C40_butfirst`, `C40_butlast_refuted`, `C40_butlast_right_iff`, `C40_butsubseq`, `C40_lastn_refuted`, `C40_member`, `C40_position`, `C40_position_from_end_value`, `C40_subseq_refuted`, `C41_combine`, `C41_expression`, `C42_cpp`, `C42_lattice`, `C42_scala`, `C43_intersection`, `C43_union`, `C44_least_fixpoint_partial`, `C44_no_false_alarm_partial`, `C44_no_internal_error`, `C44_terminates`, `C45_direction`, `C47_cpp`, `C47_local`, `C47_scala`, `C48_oag`, `C49_acyclic_of_order`, `C49_condition_refuted`, `C49_pass`, `C49_summary_acyclic`, `C50_attr_default_refuted`, `C50_exact`, `C50_no_flow_missed`, `C50_terminates`, `C50_unique`, `C51_multiset_less`, `C51_position`, `C51_range_negative_refuted`, `C51_range_overflow_refuted`, `C51_string_firstn_refuted`, `C51_string_member`, `C51_string_subseq`, `C51_tuple_compare`, `C51_tuple_join`, `C51_tuple_lattice`, `C51_tuple_meet`, `C52_range`, `C53_abs`, `C53_scala_odd_refuted`, `C54_char_code_int`, `C54_order_ascii`, `C55_compare`, `C55_equal`, `C55_lattice`, `C57_collection_partial`, `C57_history`, `C58_bound`, `C58_duplicates_partial`, `C58_empty_refuted`, `C58_plain`, `C58_unbound`, `C59_complete_partial`, `C59_complete_refuted`, `C59_entry_refuted`, `C59_finish`, `C59_guarded`, `C59_instances_refuted`, `C59_order_partial`, `C59_phases`, `C59_recursion_refuted`, `C59_succeeds`, `C59_visit`, `C60_dispatch`, `C60_evaluates`, `C60_inherited_only_refuted`, `C60_recursive_start_refuted`, `C60_schedules`, `C62_carries_partial`, `C62_guards_partial`, `C62_nothing_else`, `C62_numbered`, `C62_reads_partial`, `C62_total`, `C63_complete`, `C63_enough`, `C63_exact`, `C63_fiber_set`, `C63_follow_complete`, `C63_follow_sound`, `C63_has_fiber`, `C63_terminates`, `C64_chain_refuted`, `C64_copy_refuted`, `C64_empty_refuted`, `C64_ends`, `C64_no_fiber_missed_partial`, `C64_numbered`, `C64_shared_refuted`, `C65_evaluates_partial`, `C66_evaluates_partial`, `C66_inherited_only_refuted`, `C67_found_once_partial`, `C67_named_pattern_refuted`, `C67_sound_partial`, `C68_equality`, `C69_infers_partial`, `C69_no_false_alarm_partial`, `C70_all_scanned`, `C70_constant`, `C70_identifier`, `C70_reprint`, `C70_unterminated_refuted`, `C71_hyphens`, `C71_operator_at_end_refuted`, `C71_operator_before_comment_refuted`, `C71_to_end_of_line`, `C72_escaped_newline_refuted`, `C72_line`, `C73_long_operator_refuted`, `C73_operator_names`, `C73_wildcards`, `C73_wildcards_refuted`, `C74_keywords`, `C75_error`, `C75_total`, `C75_tree`, `C75_unambiguous`, `C76_in`, `C76_left`, `C76_levels`, `C76_meaning`, `C76_minus_refuted`, `C76_order`, `C76_parentheses`, `C76_right`, `C77_fixity`, `C79_fresh`, `C79_names`, `C80_ends`, `C80_needed`, `C80_sequence`, `C80_stops`, `C81_equations_partial`, `C82_cpp_refuted`, `C82_first_refuted`, `C82_least_partial`, `C82_locals_refuted`, `C82_printed`, `C82_solves_partial`, `C82_terminates_partial`, `C84_evaluates_partial`, `C84_planned_partial`, `C85_direct_result_refuted`, `C85_global_qual_refuted`, `C85_identity_partial`, `C85_meaning_partial`, `C85_nested_qual_refuted`, `C85_nested_result_refuted`, `C85_three_levels_refuted`, `C86_identity`, `C86_order_partial`, `C86_printed`, `C89_dump`, `C89_injective`, `C89_past_end_refuted`, `C89_tab_refuted`, `C90_checked`, `C91_cover_partial`, `C91_once_partial`, `C91_only`, `C91_procedure_refuted`, `C91_src_partial`, `C92_qualified`, `C93_form`, `C93_match`, `C93_named`, `C93_operator_refuted`, `C93_program`, `C94_defined`, `C94_elements`, `C94_error`, `C94_large_refuted`, `C94_value`, `C95_ends_partial`, `C95_failure`, `C95_lines`, `C95_not_dnc`, `C95_output`, `C95_overrun_refuted`, `C95_scc`, `C95_static`, `C95_success`, `C95_unwritable_refuted`, `C96_dirs`, `C96_open`, `C97_cover_partial`, `C97_once_partial`, `C97_only`

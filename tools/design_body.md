# Formal model of boyland/aps in Lean 4 — design

## Method

* `lean/Verif/Model/*.lean` — total, computable Lean functions that follow the C/C++ text of
  `/repo` function by function.  Each definition cites file and lines.  Loops whose termination is
  not evident are run with *fuel*; a theorem then shows which amount of fuel suffices (so the C loop
  terminates) or that no run with any amount of fuel has the bad outcome.
* Undefined behaviour, `exit(1)`, `fatal_error`, thrown exceptions and running out of fuel are distinct outcomes.
* `lean/Verif/Proofs/*.lean` — helper lemmas and invariants.
* `lean/Verif/Props/*.lean` — one file per area with the property theorems (named `Cnn_...`), the small
  independent specification they use, and `example`s showing their hypotheses can be met.
* Where the code violates the property, the property's negation is proved with a concrete
  witness (`Cnn_..._refuted`) and what does hold is proved as `Cnn_..._partial`.

## Trusted base

* Lean 4.33.0 kernel; axioms `propext`, `Classical.choice`, `Quot.sound` at most (no `native_decide`,
  no `bv_decide`, no axioms of our own).
* The correspondence between the Lean definitions and the C/C++/Scala/APS text, which was established by
  reading; the comments give the exact lines and every simplification.

## Plan per property

| id | model | proof |
|----|-------|-------|
| C01 | prime table state, sieve loops, scan loop with growth | sieve invariant; scan minimality; fuel bound from existence of a twin prime |
| C02 | probe loop with fuel | step coprime to the prime capacity; pigeonhole; load <= 1/2 invariant over histories |
| C03 | whole table incl. resize | refinement to a finite map by the probe-chain invariant |
| C04 | remove | refuted by a witness; partial: what survives |
| C05 | hash-cons table over a heap of addresses | probe-chain invariant, identity stable |
| C06 | set construction over address lists | sortedness + merge lemmas on top of C05 |
| C07, C08 | closure loop, DFS, transpose, collection | closure invariant, DFS finishing-order invariant |
| C09 | vertex registration over the hash table of C03 | invariant |
| C10 | linked stack | refinement to a list |
| C11, C12 | symbol array | invariant |
| C13 | chunk/bump allocator | invariant over histories |
| C14 | rope trees, both type tags | structural induction; integer strings refuted |
| C15 | alist/table | induction |
| C16 | 32-bit words | bit-level extensionality |
| C17 | kind words | finite algebra over 5 bits, lifted |
| C18-C20 | edge sets, add_edge, worklist closure | denotation under an assignment; strictly growing measure |
| C21 | matrix closure | least-closed-matrix argument |
| C22, C23 | analysis state | invariant of the iteration |
| C24 | nested conditionals | structural induction |
| C25 | phase loop | loop invariant |
| C26 | schedule_rest | induction on the schedule tree |
| C27 | phase counters | witness / bound |
| C28 | union-find | invariant: parents form a forest |
| C29, C30 | canonical types | structural induction |
| C31 | fiber sets | invariant over histories |
| C32-C36 | attribute state machines of aps-impl.h | big-step semantics, invariants |
| C37-C41 | value types of the runtime | equations against List/Finset |
| C42, C43 | lattice modules | algebra |
| C44 | Scala runtime | invariants |
| C45 | direction functions | case analysis |
| C46 | phylum/node creation and `finish` of the C++ runtime | invariant over histories |
| C47 | the text of a dynamic evaluator as a term language; emitter and interpreter for C++ and Scala | simulation between the interpreter of the emitted code and the meaning of the equations |
| C48 | OAG: DNC state, phases, intra-phase links, closing, conditional total order | composition of C23, C25, C26 through a pair invariant of the main loop |
| C49 | `break_fiber_cycles` | exact effect of a pass; refutations by witness |
| C50 | `doOU`, `doUO`, `doUOp`, `compute_OU` and the loop of `fiber_module` | soundness as an invariant of every update; completeness because the last round changes nothing |
| C51–C55 | Scala library values | equations against `List`/`Finset`/maps, refutations |
| C56 | Scala evaluation after a failure | invariant over histories of demands |
| C57 | module variables | history lemma |
| C58 | `aps-bind.c`: environments, scopes, use binding | independent scope relation; both directions by induction on the program |
| C59 | static scheduler for circular grammars: chunks, SCC of chunks, recursion | invariant of the recursive scheduler |
| C60 | visit procedures emitted by `static-impl.cc`, run on trees | walk invariant; uniqueness of the solution |
| C61 | `DECL_NEXT` links | traversal combinators |
| C62 | `get_edges`, `record_*_dependencies`, `get_instances`, `get_match_tests` | simulation between the traversal and a relation "rule reads" |
| C63 | `add_FSA_edge`, `beclose`, `makeNode`, `get_same`, `check_transition`, `makeDFA`, `DFA_fiber_set`, `longer`, `dep_modifier_fiber` | each node means a word: invariant over the worklist; ancestors with different keys bound the depth |
| C64 | `id_decl_node`, `id_expr_node`, `count_node`, `nodeset_union`, `set_of_node`, `link_expr_rhs`, `link_expr_lhs`, `link_expr_lhs_p`, `build_FSA`, `fiber_module` | a fiber is defined by what is read and assigned in the program (Spec/Fsa, four mutual relations); each relation gives an accepting run of the automaton, by induction; tails of fibers are fibers, so C63 applies |
| C65 | the passes of C48, C54, C60 in a row: `dnc_close`, `compute_oag`, `attribute_schedule`, `dump_visit_functions`, and running the code on a tree | from what C48 says about the total orders and C52/C53 about summaries follow the hypotheses of C60: phases ordered, the shared info first, what is read comes before |
| C66 | C65 with the graphs made by `init_augmented_dependency_graph` from the equations | Spec/Source says what a grammar is; the graph of C62 is shown to have the edges C65 asks for, numbering and conditions of conditionals included |
| C67 | `do_typechecking`, `infer_expr_type`, `check_expr_type`, `check_actuals`, `infer_pattern_type`, `check_pattern_type`, `check_pattern_actuals`, `check_type_subst`, `check_type_signatures`, `type_subst` | slots of environments are filled once, so what unification finds stays true; the state at the end gives the replacements and the types of the variables of a typing derivation (Spec/TypeCheck: declarative rules) |
| C68 | `base_type`, `base_type_equal`, `check_type_equal` | normal forms: unique, invariant under the declarative equality, and computed by the code |
| C69 | as C67 | induction on typing derivations, up to equality of types, with enough fuel |
| C70 | patterns and actions of aps.lex | derivatives give the longest match (proved against the declarative meaning of regular expressions); each rule is classified by the characters it may contain; what matches a token and a blank matched the token before |
| C71 | as C70 | a rule whose text ends with a hyphen needs another character after it; the comment is the longest match |
| C72 | as C70 | which rules can match a newline; induction on the pieces |
| C73 | `make_code_name`, `translate`, the action of `_` | the translation is injective on the characters of operators; decimal numbers are |
| C74 | `symbol_token`, `init_lexer_tables`, with the symbol table of C11 | the first names of the table stay, and names are distinct |
| C75 | expressions of aps.y, with bison's resolution of conflicts, as a machine with a stack of operators | invariants of the stack give soundness; a tree that respects precedence drives the machine to itself (completeness); a measure bounds the fuel |
| C76 | as C75, and the actions | from C75: the trees respect precedence |
| C77 | `fixity`, `set_infix`, `get_infix`, with C75 | induction on units: the table is what was declared |
| C78 | `public`, `constant` in the actions for declarations | mutual induction on declarations and bodies against a definition with scopes |
| C79 | `make_implicit_name` | the last underscore separates the number; decimal numbers are injective |
| C80 | `find_Program`, and `bind_Program`, `type_Program`, `main` as far as they read files | depth-first search: flags bound the depth (at most 100 programs); what is newly checked has all it needs checked; names are distinct |
| C81 | `make_instance_assignment`, `implement_visit_function` of static-scc-impl.cc | what is written only grows; without conditionals the sets of expressions are the equations |
| C82 | the same, with the meaning of the printed Scala code (`StaticCircularEvaluation`) | the code is a flat list of settings and loops of settings; a loop that ends has a last round without changes, so its equations hold; values stay below every solution (Kleene), and rise in every round |
| C83 | `OutputWriter`, `implement_visit_function`, `dump_visit_functions` | induction on the total order: what is written is the rest of a loop, or code |
| C84 | the chunk scheduler (C59), the printed procedures (C81, C83) and their meaning (C82), together | the tree of a schedule without conditionals is the tree of its parts in order, phase by phase; from the order of the parts (C59) each condition on plans follows |
| C85 | `canonical_type`, the joins and the base type over programs whose uses are bound, with fuel | types by path as an independent meaning of type expressions; by induction on the fuel every join keeps the meaning and gives a normal form; the meaning is a function of the expression and injective on normal forms; five counterexamples in the program of examples/test-canonicals.aps |
| C86 | signatures as objects of a hash-cons table over addresses of types; comparison and the insertion sort of the printer | instance of C05; comparison is a lexicographic total preorder by C30, so the sort gives a sorted permutation, which is unique if only identical signatures compare as 0 |
| C87 | signatures as terms; the mutually recursive inference with fuel, over the types of C85 | more fuel never changes a result; the three nested loops replace all formals at once; a potentially infinite chain of base types as counterexample to ending |
| C88 | the switch statements of aps-traverse.c as tables extracted by `tools/gen_ast.py` (which consumes every line of the C files), one generic function over them; the grammar as a table extracted from aps-tree.aps | the tables agree with the grammar for every constructor (a complete finite check in the kernel); induction on trees |
| C89 | the same for aps-tree-dump.c, with the handwritten printing of symbols and strings; a Lisp reader as specification | induction on trees: what is printed for a child is one blank and one expression for the reader |
| C90 | constructor, accessor, `_KEY` and copy functions of aps-tree.c as tables, with `create_tnode` | tables agree with the grammar; induction on the calls for the grammar invariant, on trees for copies |
| C91 | `ServiceRecord` and the three mutually recursive transfer functions of dump-scala.cc with fuel, on a program of numbered declarations | the run is one fold over a list of declarations whose members are those of an inductive relation `Offers`; invariant of the fold for the record and the lines; accessibility for the end |
| C92 | `type_services`, `inst_services`, `signature_services` of aps-bind.c with fuel, on a program of numbered declarations with the set of modules bound so far | the frames of a type as an inductive relation; both directions by induction (on fuel, on the derivation); composed with C58 |
| C93 | `dump_Pattern`, `dump_pattern_call` of dump-scala.cc with the global `formal_count`, printing a tree for the text; what Scala accepts as a pattern, and what a pattern does with the generated extractors | mutual structural induction over patterns, against `pmatch` (the meaning of patterns of C47); composed with C47 |
| C94 | `dump_Expression`, `dump_collect_Actuals` of both generators, printing a tree for the text; what integer literals mean in C++ and Scala | the value of an expression as an inductive relation; mutual structural induction |
| C95 | `analyze_thing` over the models of its passes; `main` of both compilers as a function from the arguments and what reading, binding and typing find | command lines as an inductive relation on words; invariant between the options read and the global variables |
| C96 | `set_aps_path`, `aps_open`, `filebase`, with pointers as rests of strings and buffers with a capacity | induction on the number of colons, on the path |
| C97 | `dump_TypeDecl_Traits` and the members of `dump_some_class_decl`, on the canonical signatures that were inferred | the loops are one fold of C91's step over the declarations of the public classes; C91's invariants |
| C98 | `set_tnode_parent` as a callback of the traversal of C88; the rule accessors of aps-ag-util.c on the tree, with `parent`, `next` and `use_decl` as fields by address | induction over trees for the parents; the loop over the right-hand side by induction over the variables, in both directions |
| C99 | the switches of parse/aps-util.c as tables extracted from the source; the patterns of aps-tree.aps as tables extracted from the grammar; the stack loop of `FOR_SEQUENCE` | the functions by evaluation over all constructors in the kernel, for nodes with any children; the loop by induction over the tree, for any stack below |
| C100 | the pass noting local attributes, the names of their objects, the walk up from a local printing the bindings of the matches around it, the function of a local | numbering by mutual induction; names by injectivity of decimal numbers with a separator; the function: induction over the path from the rule to the block of the local, then the C47 theorem for blocks |
| C101 | what is printed for a function declaration (body, default, or nothing), `implement_function_body`, a call with bound arguments; programs of functions as families over an interpretation of the functions, unfolded to any depth | one level by the C47 theorem for blocks; any depth by induction, with an arbitrary result below (so a value that does not depend on it is that of the recursion) |
| C102 | what is printed around the declarations of a program: guard, `#define`, includes, object and imports; the C preprocessor on such files, with includes read in place | an invariant of the preprocessor's state (which headers are begun, which are being read), by induction on the number of headers not begun and on the units; character by character for names |
| C103 | `ServiceRecord`, `dump_Signature_service_transfers`, `dump_Type_service_transfers` and `dump_Type_superclass` of dump-cpp.cc, on the signatures and types of C91 | the search is a fold over the declarations that a relation without order describes; an invariant of the record and the typedefs over that fold |
| C104 | what dump-cpp.cc and dump-scala.cc print for a constructor (its class, its function, its tag) and the run-time system that this code calls: `set_parent`, `install`, `register`, `Nodes.add` | invariants over histories of calls, relating the member `parent` to the fields of all nodes, and the lists of phyla to the numbers of nodes |
| C105 | `dump_some_attribute` of dump-cpp.cc and dump-scala.cc, setters of input variables, and the classes of the run-time systems that are extended: `Evaluation`, `CollectionEvaluation`, `CircularEvaluation`; `Attribute`, `Collection` | the class that is printed is shown to have what the declaration says; then an invariant of the instance over sequences of operations, against a specification that has only the history |
| C106 | the order in which both generators initialize the members of the class of a module (types first in C++), and running the initializers | induction over the members against equations that all members have to solve; uniqueness of solutions in order of use |
| C107 | the initialization of `t_T` and the functions `get_T` for top-level types, with C++ `static` variables | an invariant of the heap and of both kinds of variables over nested calls; definedness by induction on the rank of types |
| C108 | global variables for top-level values, and how C++ initializes them | the order is shown to respect uses, for every permutation of files; then as C106 |
| C109 | the object of each file for top-level values, and how Scala initializes objects when they are used | an invariant of finished objects by rank of files, over nested initializations; objects that are in progress are framed |

A property whose full statement is false of the code keeps its statement in `properties.jsonl`; the
negation is a theorem `_refuted`, what holds is `_partial` (or, where the defect is outside the
statement, a plain theorem).

## Modelled / not modelled

| file | modelled in | left out |
|------|-------------|----------|
| utilities/prime.c, hashtable.c, hashcons.c, scc.c, stack.c | `Prime`, `HashTable`, `HashCons`, `Scc` | malloc failure; the hash functions themselves are arbitrary parameters (except where their value matters) |
| parse/alloc.c, jbb-alloc.h | `Alloc` | real malloc (its contract is a hypothesis) |
| parse/symbol.c, string.c | `Symbol`, `Rope` | stdio output functions |
| parse/aps.lex | `Lex` | what flex makes of the patterns is trusted (longest match, first rule, trailing context); infix kinds of operators |
| parse/aps.y | `Parse`: expressions, fixity, flags, implicit names | bison is trusted (conflicts resolved by levels); types, patterns, statements, sequences, error recovery |
| parse/aps-tree.c, tree.i, aps-traverse.c, aps-tree-dump.c, aps-tree.aps | `AstTables` (extracted), `Ast` | the `info` area, malloc failure, text of errors; what is printed before a stop |
| parse/aps-util.c, aps-util.h (`FOR_SEQUENCE`) | `Util`, `UtilTables` | the dead macro `KEYsome_use` (names a `KEYsignature_use` that does not exist) |
| analyze/alist.c, table.c | `Alist` | — |
| analyze/aps-bind.c | `Bind`, `Next`, `Qual` (services of types) | error text; the memo of services |
| analyze/aps-cond.c, aps-dnc.c | `Dnc` (edge sets, graphs, closure, iteration), `IfCond` (numbering of conditions), `EdgeGen` (instances, edges from rules) | printing; edges between fibers are those of `EdgeGen` for given fibers |
| analyze/aps-fiber.c | `Fiberset` (fiber sets and worklist), `Points` (object and use sets), `Fsa` (numbering, `build_FSA`), `Dfa` (the fiber automaton and tree) | the walk that lists declarations and uses is given as a list; dead worklist code (1130-1330) |
| analyze/aps-fiber-callsite.c, aps-fiber-AI.c | — | not modelled: no Makefile compiles them |
| analyze/aps-oag.c | `Oag` | debug printing |
| analyze/aps-scc.c, aps-schedule.c | `Phase`, `Chunk` | printing |
| analyze/aps-cycle.c | `Cycle` | printing |
| analyze/aps-analyze.c, apscpp/apscpp.cc, aps2scala/aps2scala.cc, aps_error/aps_check_error/set_debug_flags | `Driver` (the passes are those of `Dnc`, `Cycle`, `Oag`) | analyze/apsc.c; what the letters after -D print |
| analyze/canonical-type.c, canonical-signature.c | `CType` (construction, equality, hash, order), `CanonTy` (canonical types of type expressions, base type, join), `CSig` (signatures: identity, order, printing), `SigInfer` (inference) | the size of the `alloca` buffers |
| analyze/aps-type.c | `TypeCheck` | modules, qualified uses, renamings, functions with several results, `ensure_non_var_use`; the first error stops the model |
| analyze/aps-read.c | `Read`, `Path` (the search path, names of files) | — |
| analyze/aps-info.c, aps-ag-util.c | `Rule` (direction functions of aps-info.h/aps-dnc.c in `Oag`) | — |
| base/cpp/aps-impl.h, .cpp | `Runtime`, `Str` | debug output |
| base/cpp/basic.handcode.*, table.handcode.h, base/basic.aps, flat.aps, table.aps | `Coll`, `Str`, `Table`, `Lattice` | string I/O |
| base/scala/*.scala | `ScalaEval`, `ScalaLib`, `Table`, `Lattice` | Scala standard library (its documented behaviour is assumed) |
| apscpp/dyn-impl.cc, aps2scala/dyn-impl.cc | `DynGen` | — |
| codegen/static-impl.cc | `Static`, `Pipeline` (how phases get there), `Source` (productions as the analysis sees them) | fibers (field writes), text layout |
| codegen/static-scc-impl.cc | `SccGen` | for-in statements, functions, instances of the module, comments |
| apscpp/dump-cpp.cc, aps2scala/dump-scala.cc | the expression/pattern part used by `DynGen`; patterns of dump-scala.cc (`ScalaPat`); expressions (`ExprGen`); the service transfers of dump-scala.cc (`Service`); the traits of instances in dump-scala.cc (`Traits`); local attributes (`Locals`); functions (`Func`); guards, includes and imports (`Layout`); typedefs and superclass of C++ modules (`CService`); nodes and constructors (`Nodes`); classes of attributes (`Start`); order of members (`Consts`); top-level types and values (`TopTypes`, `TopVals`, `Objects`) | the rest of class and signature dumping |

General simplifications: C `int` arithmetic is modelled with overflow only where a property is about it
(C27, C37, C39, C52, C53); memory is a heap of addresses where sharing or reuse matters (C05, C06, C11,
C13, C15) and plain values elsewhere.

## Defects noticed by reading, outside any theorem

* aps-oag.c:336 debug loop runs to `i<=n`; aps-schedule.c: scc with no vertices exits.
* closeAugmentedDependencyGraph reports "unchanged" when only the summary was raised.
* record_lhs_dependencies uses an uninitialised `decl` for local calls; the result edge of a local call uses
  `kind` where `new_kind` was computed; formals of case patterns get no condition.
* basic.handcode.h subseq_from_end uses `l-finish` on pointers; V_empty_table::as_full returns a temporary.
* aps-type.c: `KEYsome_class_decl:` is written without `case` (a label); `remote T` passes for `T`; a loop over something without elements passes if the variable is not used.
* canonical_type_base_type falls from the QUAL case into the FUNC case; for a qualified alias it drops the source; the base
  type of an instance of an `extends T` module is the canonical actual, not its base type; phylum formals have no canonical type.
* canonical-signature.c: `alloca(canonical_sig->num_actuals)` allocates bytes, not pointers; the parent signature of a class is read but not used.

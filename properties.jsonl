{"id": "C01", "title": "Twin-prime sizing is exact", "statement": "next_twin_prime(p), called with p>=0 and whatever the state of the cached prime table left by earlier calls, returns the least n>=p such that n and n-2 are both prime; the cached table after any call marks exactly the primes below its size; the call terminates whenever such an n exists.", "quantifier": "all p>=0, all histories of earlier calls", "why_tests_cant": "the answer must be right for every argument and every table state left behind by previous calls (growth by doubling, restarts of the scan)", "anchors": ["utilities/prime.c:sieve_of_eratosthenes", "utilities/prime.c:next_twin_prime"]}
{"id": "C02", "title": "Hash-table probing always ends", "statement": "In any table reached through hash_table_initialize and hash_table_add_or_update/hash_table_remove, the probe loop of a lookup for any key ends: it visits every slot before repeating and some slot is empty, because the capacity is a prime and the load never exceeds one half.", "quantifier": "all tables reachable by any operation history, all keys, all hash functions", "why_tests_cant": "an infinite probe loop depends on the exact arithmetic relation of step and capacity for every hash value", "anchors": ["utilities/hashtable.c:hash_table_candidate_index", "utilities/hashtable.c:hash_table_add_or_update"]}
{"id": "C03", "title": "Hash table is a finite map", "statement": "For every history of hash_table_initialize followed by add_or_update calls with non-NULL keys, hash_table_get returns the value of the latest add_or_update with an equal key and NULL if there was none, hash_table_contains says exactly whether there was one, and size is the number of distinct keys, across all resizes.", "quantifier": "all histories of add_or_update, all hash functions compatible with an equivalence equality function", "why_tests_cant": "resizing, collisions and hash functions give unboundedly many table layouts", "anchors": ["utilities/hashtable.c:hash_table_add_or_update", "utilities/hashtable.c:hash_table_get", "utilities/hashtable.c:hash_table_contains", "utilities/hashtable.c:hash_table_resize"]}
{"id": "C04", "title": "Hash-table removal", "statement": "After hash_table_remove(k) exactly k disappears from the map and every other key keeps its value.", "quantifier": "all histories with removals", "why_tests_cant": "whether a removal breaks another key's probe chain depends on the layout", "anchors": ["utilities/hashtable.c:hash_table_remove"]}
{"id": "C05", "title": "Hash-consing returns one address per value", "statement": "For every history of hash_cons_get calls on one table: two calls return the same address iff their items are equal; the returned object equals the item; an address once returned stays the canonical one after any later growth.", "quantifier": "all histories, all equivalences and compatible hash functions", "why_tests_cant": "the identity must survive every resize and collision pattern; type and signature comparison by pointer in the whole analyser relies on it", "anchors": ["utilities/hashcons.c:hash_cons_get", "utilities/hashcons.c:hc_resize"]}
{"id": "C06", "title": "Hash-consed sets are canonical", "statement": "Sets obtained from get_hash_cons_empty_set, add_hash_cons_set and union_hash_const_set are represented by the same address iff they have the same elements, and union/add have exactly the union as elements.", "quantifier": "all set expressions over addresses, any history of the table", "why_tests_cant": "canonicity must hold for all ways of building the same set", "anchors": ["utilities/hashcons.c:new_hash_cons_set", "utilities/hashcons.c:add_hash_cons_set", "utilities/hashcons.c:union_hash_const_set"]}
{"id": "C07", "title": "Strongly connected components are exact", "statement": "scc_graph_components on a graph with all n vertices added returns components that list every vertex exactly once, and two vertices are in the same component iff each can reach the other along added edges.", "quantifier": "all n>0, all edge sets", "why_tests_cant": "must hold for every digraph; the order of DFS and closure interact", "anchors": ["utilities/scc.c:scc_graph_components", "utilities/scc.c:dfs", "utilities/scc.c:dfs_collect_scc"]}
{"id": "C08", "title": "SCC components come in topological order", "statement": "In the result of scc_graph_components, an edge between different components always goes from an earlier component to a later one.", "quantifier": "all digraphs", "why_tests_cant": "global ordering property over every graph", "anchors": ["utilities/scc.c:scc_graph_components"]}
{"id": "C09", "title": "SCC vertex registration", "statement": "scc_graph_add_vertex gives every distinct pointer its own index, rejects a duplicate or an extra vertex, and scc_graph_add_edge records an edge between exactly the two named vertices (and rejects unknown ones).", "quantifier": "all sequences of add_vertex/add_edge calls", "why_tests_cant": "goes through a hash table of arbitrary pointer values", "anchors": ["utilities/scc.c:scc_graph_add_vertex", "utilities/scc.c:scc_graph_add_edge"]}
{"id": "C10", "title": "Stack is LIFO", "statement": "stack_push/stack_pop/stack_is_empty behave as a LIFO sequence for every history; pop fails exactly on the empty stack; destroy empties it.", "quantifier": "all histories of stack operations", "why_tests_cant": "unbounded histories", "anchors": ["utilities/stack.c"]}
{"id": "C11", "title": "Symbol interning", "statement": "intern_symbol on equal strings returns the same symbol and on different strings different symbols, for every history; symbol_id and id_symbol are inverse; the name of a symbol is the interned string.", "quantifier": "all histories within the symbol limit", "why_tests_cant": "all histories of interning", "anchors": ["parse/symbol.c:intern_symbol", "parse/symbol.c:find_symbol", "parse/symbol.c:symbol_id", "parse/symbol.c:id_symbol"]}
{"id": "C12", "title": "Fresh symbols are fresh", "statement": "gensym returns a symbol whose name was not interned before.", "quantifier": "all histories of intern and gensym", "why_tests_cant": "depends on user identifiers that look like generated ones", "anchors": ["parse/symbol.c:gensym"]}
{"id": "C13", "title": "Bump allocation is disjoint and aligned", "statement": "Every HALLOC/SALLOC result is an aligned block lying inside one memory chunk and disjoint from every block allocated since and not released; releasing to a mark only invalidates later blocks.", "quantifier": "all allocation/release histories", "why_tests_cant": "overlap can show up only for particular size sequences", "anchors": ["parse/alloc.c", "parse/jbb-alloc.h"]}
{"id": "C14", "title": "Rope strings denote concatenation", "statement": "string_length and realize_string of every STRING built with make_string, conc_string and make_integer_string give the length and the bytes of the text it denotes.", "quantifier": "all rope trees", "why_tests_cant": "unbounded trees", "anchors": ["parse/string.c:string_length", "parse/string.c:realize_string", "parse/string.c:conc_string"]}
{"id": "C15", "title": "Association lists and tables are maps", "statement": "assoc/rassoc/setassoc on ALIST and get/set on TABLE return the value most recently bound to the key.", "quantifier": "all histories", "why_tests_cant": "unbounded histories", "anchors": ["analyze/alist.c", "analyze/table.c"]}
{"id": "C16", "title": "Condition comparison is semantic", "statement": "cond_compare(c1,c2) reports equality, implication in either direction, or complementarity exactly: read as sets of branch assignments, CONDeq iff same set, CONDlt iff strictly smaller, CONDgt iff strictly larger; CONDcomp iff the two are disjoint and their union is again a condition; and CONDcomp's merged condition denotes the union.", "quantifier": "all pairs of satisfiable conditions over 32 branches", "why_tests_cant": "2^128 pairs of condition words", "anchors": ["analyze/aps-cond.c:cond_compare"]}
{"id": "C17", "title": "Dependency-kind algebra", "statement": "dependency_join is a semilattice join and dependency_trans is monotone, associative, commutative and distributes over join, so closure results do not depend on the order of combination.", "quantifier": "all dependency kinds", "why_tests_cant": "laws must hold over the whole domain and feed the closure proofs", "anchors": ["analyze/aps-dnc.c:dependency_join", "analyze/aps-dnc.c:dependency_trans", "analyze/aps-dnc.c:dependency_indirect"]}
{"id": "C18", "title": "Adding an edge changes exactly what it says", "statement": "add_edge(source,sink,kind,cond) on any graph built by adding edges succeeds; afterwards the dependency kind that holds between source and sink under a branch assignment is the join of the old one with kind if the assignment satisfies cond and unchanged otherwise, and nothing changes between any other pair; edgeset_kind is the join over all assignments and edgeset_lowerbound holds under every assignment.", "quantifier": "all edge sets, kinds, conditions, assignments", "why_tests_cant": "all edge-set shapes", "anchors": ["analyze/aps-dnc.c:add_edge", "analyze/aps-dnc.c:edgeset_kind"]}
{"id": "C19", "title": "Augmented graph closure terminates and is closed", "statement": "close_augmented_dependency_graph terminates for every graph and every worklist order, and leaves a graph where under every branch assignment the kind from a to c is at least the transitive combination of the kinds from a to b and b to c.", "quantifier": "all graphs, all branch assignments, all worklist orders", "why_tests_cant": "all graphs and worklist orders; termination with conditions", "anchors": ["analyze/aps-dnc.c:close_augmented_dependency_graph", "analyze/aps-dnc.c:close_using_edge", "analyze/aps-dnc.c:add_transitive_edges_to_graph"]}
{"id": "C20", "title": "Augmented graph closure adds nothing spurious", "statement": "Every dependency present after close_augmented_dependency_graph is justified by a path of original dependencies all enabled under the same branch assignment: the result is the least closed graph above the input.", "quantifier": "all graphs, assignments", "why_tests_cant": "soundness of all inferred edges", "anchors": ["analyze/aps-dnc.c:close_augmented_dependency_graph", "analyze/aps-dnc.c:add_transitive_edge_to_graph"]}
{"id": "C21", "title": "Summary graph closure is exact", "statement": "close_summary_dependency_graph leaves exactly the transitive closure (least closed matrix above the input) and reports a change iff it changed the matrix.", "quantifier": "all matrices", "why_tests_cant": "all sizes of matrices; in-place update order with early exit", "anchors": ["analyze/aps-dnc.c:close_summary_dependency_graph"]}
{"id": "C22", "title": "Cycle report is exact", "statement": "analysis_state_cycle reports a cycle iff some instance depends on itself in some summary or augmented graph (after closure: iff there is a path from an instance to itself enabled under one branch assignment) and returns the strongest cyclic kind reported.", "quantifier": "all analysis states", "why_tests_cant": "all graphs", "anchors": ["analyze/aps-dnc.c:analysis_state_cycle"]}
{"id": "C23", "title": "DNC iteration reaches a mutual fixpoint", "statement": "dnc_close ends with every augmented graph closed and containing its children's summary dependencies and every summary graph closed and containing the dependencies its productions induce.", "quantifier": "all grammars (sets of graphs)", "why_tests_cant": "global fixpoint over all graphs", "anchors": ["analyze/aps-dnc.c:dnc_close", "analyze/aps-dnc.c:synchronize_dependency_graphs", "analyze/aps-dnc.c:augment_dependency_graph"]}
{"id": "C24", "title": "Branch conditions characterise control flow", "statement": "The condition attached by init_decl_cond to a declaration nested in if/case branches is satisfied by exactly the branch assignments under which control reaches it; declarations in opposite branches of one conditional have contradictory conditions.", "quantifier": "all nestings of conditionals (up to the 32 the word can hold)", "why_tests_cant": "all nesting shapes", "anchors": ["analyze/aps-dnc.c:init_decl_cond", "analyze/aps-oag.h:MERGED_CONDITION_IS_IMPOSSIBLE"]}
{"id": "C25", "title": "Summary scheduling respects dependencies", "statement": "When schedule_summary_dependency_graph succeeds, every attribute instance of the phylum gets a phase; if i depends on j then j's phase is not after i's, inherited before synthesised within a phase; it fails only if no total order exists.", "quantifier": "all closed acyclic summary graphs, all direction assignments", "why_tests_cant": "all graphs", "anchors": ["analyze/aps-oag.c:schedule_summary_dependency_graph"]}
{"id": "C26", "title": "Conditional total order is a schedule for every branch outcome", "statement": "schedule_augmented_dependency_graph's conditional total order: along the path chosen by any branch assignment every instance possible under it occurs exactly once, and after all instances it depends on under that assignment.", "quantifier": "all augmented graphs, all branch assignments", "why_tests_cant": "exponentially many paths", "anchors": ["analyze/aps-oag.c:schedule_rest", "analyze/aps-oag.c:schedule_augmented_dependency_graph"]}
{"id": "C27", "title": "Circular-phase scheduling stays in bounds", "statement": "The phase arrays used by the circular-aware summary scheduler are never indexed outside their allocation.", "quantifier": "all phyla with any mix of circular and non-circular attributes", "why_tests_cant": "out-of-bounds writes depend on shape", "anchors": ["analyze/aps-schedule.c:schedule_summary_dependency_graph"]}
{"id": "C28", "title": "Cycle classes are exact", "statement": "After the merging pass of make_cycles two instances are in one class iff they are connected through merges performed, whatever the path compression order; get_set returns one representative per class.", "quantifier": "all merge histories", "why_tests_cant": "all union-find histories", "anchors": ["analyze/aps-cycle.c:get_set", "analyze/aps-cycle.c:merge_sets"]}
{"id": "C29", "title": "Canonical type equality and hash agree", "statement": "Canonical types that are equal by canonical_type_equal have equal canonical_type_hash, and canonical_type_equal is an equivalence; hence hash-consing of types is canonical.", "quantifier": "all canonical types", "why_tests_cant": "all type terms", "anchors": ["analyze/canonical-type.c:canonical_type_hash", "analyze/canonical-type.c:canonical_type_equal"]}
{"id": "C30", "title": "Canonical type order", "statement": "canonical_type_compare is a total order consistent with identity of canonical types (so sorting gives a canonical sequence).", "quantifier": "all pairs and triples of canonical types", "why_tests_cant": "order laws on all triples", "anchors": ["analyze/canonical-type.c:canonical_type_compare"]}
{"id": "C31", "title": "Fiber sets are sets and the worklist loses nothing", "statement": "Adding a fiber to a fiberset is idempotent, membership is exact, and each fiber added is handed out exactly once by the worklist.", "quantifier": "all histories of additions and removals", "why_tests_cant": "all interleavings of adding and taking", "anchors": ["analyze/aps-fiber.c:add_to_fiberset", "analyze/aps-fiber.c:member_fiberset", "analyze/aps-fiber.c:get_next_fiber"]}
{"id": "C32", "title": "An attribute is evaluated at most once and gives its defining value", "statement": "Reading a (non-circular) attribute of the C++ runtime returns the value its equation determines from the values of the attributes it reads; the equation is run at most once per node; later reads return the same value.", "quantifier": "all nodes, all acyclic dependency graphs, all demand orders", "why_tests_cant": "all demand orders and dependency graphs", "anchors": ["base/cpp/aps-impl.h:Attribute::evaluate", "base/cpp/aps-impl.h:Attribute::get"]}
{"id": "C33", "title": "Cyclic demand is always detected", "statement": "Reading a non-circular attribute whose evaluation depends on itself raises the cyclic-attribute exception instead of looping, and an attribute with no equation and no value raises undefined.", "quantifier": "all dependency graphs over finitely many nodes", "why_tests_cant": "all cycles of all lengths", "anchors": ["base/cpp/aps-impl.h:Attribute::evaluate"]}
{"id": "C34", "title": "Assigning after evaluation is rejected, and demanded values are stable", "statement": "Once an attribute value has been demanded with evaluate, later demands and reads give the same value whatever is called in between, and every assignment to that attribute is refused with the too-late error and changes nothing.", "quantifier": "all histories of node creation/assign/get/evaluate/finish", "why_tests_cant": "all histories", "anchors": ["base/cpp/aps-impl.h:Attribute::assign", "base/cpp/aps-impl.h:Attribute::check_phylum"]}
{"id": "C35", "title": "Collection attributes combine every contribution once", "statement": "A collection attribute's value is the combination of its default with all the contributions made before it was read, each exactly once and in order.", "quantifier": "all contribution histories, all combining functions", "why_tests_cant": "all histories", "anchors": ["base/cpp/aps-impl.h:Collection"]}
{"id": "C36", "title": "Circular attributes reach the least fixpoint", "statement": "Demanding a circular attribute yields the least fixpoint of its equations over a finite-height lattice.", "quantifier": "all monotone equation systems", "why_tests_cant": "all demand orders over all equation systems", "anchors": ["base/cpp/aps-impl.h:CircularAttribute"]}
{"id": "C37", "title": "Sequence operations match sequence semantics", "statement": "nth, position, member, subseq, butsubseq, length, concatenation and equality on sequence-valued collections agree with the sequence of elements they denote, however the collection was built from append/single/none.", "quantifier": "all sequences and all tree shapes, all indices", "why_tests_cant": "tree shapes and index values are unbounded", "anchors": ["base/cpp/basic.handcode.h:COLL"]}
{"id": "C38", "title": "Set operations match set semantics", "statement": "union, intersection, difference, subset and equality on SET values agree with finite-set semantics independent of representation.", "quantifier": "all sets and representations", "why_tests_cant": "all representations", "anchors": ["base/cpp/basic.handcode.h:C_SET"]}
{"id": "C39", "title": "Integer printing is faithful", "statement": "The string form of an integer reads back to that integer and never depends on overflow.", "quantifier": "all int values", "why_tests_cant": "2^32 values plus UB at the boundary", "anchors": ["base/cpp/basic.handcode.cpp:C_INTEGER::v_string"]}
{"id": "C40", "title": "String subsequences match list semantics", "statement": "subseq, subseq_from_end, butsubseq, butsubseq_from_end, nth and nth_from_end on strings agree with the corresponding operations on the list of characters.", "quantifier": "all strings and indices", "why_tests_cant": "all index combinations", "anchors": ["base/cpp/basic.handcode.cpp:C_STRING"]}
{"id": "C41", "title": "Tables are maps with combining", "statement": "A TABLE built from empty tables, entries and combination selects for each key the combination of all values added for it (or the initial value), and operations do not change tables passed as arguments.", "quantifier": "all table expressions", "why_tests_cant": "aliasing and lazily built tables", "anchors": ["base/cpp/table.handcode.h"]}
{"id": "C42", "title": "Flat lattice laws", "statement": "FLAT_LATTICE join and meet are the least upper and greatest lower bound of the flat order; compare is a strict partial order.", "quantifier": "all element types with equality", "why_tests_cant": "laws over all values", "anchors": ["base/flat.aps"]}
{"id": "C43", "title": "Boolean and ordered lattices obey the lattice laws", "statement": "OrLattice/AndLattice, MAX/MIN lattices, UNION/INTERSECTION lattices: join is a least upper bound of the declared comparison, initial is bottom.", "quantifier": "all values", "why_tests_cant": "laws over all values", "anchors": ["base/basic.aps"]}
{"id": "C44", "title": "Scala circular evaluation reaches the least fixpoint", "statement": "evaluating a circular attribute with the Scala runtime terminates over a finite-height lattice with monotone equations and gives the least fixpoint for every member of the cycle discovered.", "quantifier": "all monotone equation systems", "why_tests_cant": "all demand orders", "anchors": ["base/scala/aps-impl.scala:CircularEvaluation"]}
{"id": "C45", "title": "Instance directions", "statement": "invert_direction is an involution and the direction of a fibered attribute on an inherited/synthesised occurrence flips exactly with reverse fibers and child/parent position.", "quantifier": "all instances", "why_tests_cant": "all combinations", "anchors": ["analyze/aps-dnc.c:instance_direction", "analyze/aps-dnc.c:fibered_attr_direction"]}
{"id": "C46", "title": "Nodes get dense indices until their phylum is finished", "statement": "Each node created in a phylum gets the number of nodes created in it before as its index; once an attribute of the phylum has been finished every creation is refused with the too-late error and changes nothing.", "quantifier": "all histories of node creation, assignment, reading, evaluation (circular or not) and finishing", "why_tests_cant": "all histories", "anchors": ["base/cpp/aps-impl.cpp:Phylum::install", "base/cpp/aps-impl.cpp:Phylum::size", "base/cpp/aps-impl.h:Attribute::finish"]}
{"id": "C49", "title": "Breaking fiber cycles", "statement": "After break_fiber_cycles the dependencies inside a cycle class go only from UP to DOWN members, every other dependency is kept (and spread over the members of the class), the pass never fails, and no cycle is left in a graph whose classes can be ordered.", "quantifier": "all analysis states (any graphs, conditions, kinds), both directions, any UP/DOWN labelling", "why_tests_cant": "all dependency graphs and class structures; the order in which rows are rewritten in place matters", "anchors": ["analyze/aps-cycle.c:add_up_down_attributes", "analyze/aps-cycle.c:break_fiber_cycles", "analyze/aps-cycle.c:edgeset_combine_dependencies"]}
{"id": "C52", "title": "Integer ranges", "statement": "x..y is the list x, x+1, ..., y (empty when y < x), in order and without repetition, when it terminates.", "quantifier": "all pairs of 32-bit integers", "why_tests_cant": "all pairs; negative starts never end because division truncates", "anchors": ["base/basic.aps:..", "base/cpp/basic.handcode.h:range"]}
{"id": "C53", "title": "Integer powers and absolute value", "statement": "^ computes the mathematical power for every non-negative exponent, and abs the absolute value, in the C++ and the Scala library.", "quantifier": "all integers and exponents", "why_tests_cant": "all integers", "anchors": ["base/basic.aps:INTEGER", "base/scala/basic.handcode.scala:M_INTEGER"]}
{"id": "C54", "title": "Character codes and string order", "statement": "char_code and int_char are inverse on codes, and < on strings is a strict total order that agrees with the lexicographic order of the character codes.", "quantifier": "all characters and strings", "why_tests_cant": "all strings, including bytes above 127", "anchors": ["base/cpp/basic.handcode.h", "base/basic.aps:STRING"]}
{"id": "C55", "title": "Scala tables and table lattices", "statement": "Combining two Scala tables keeps every key of either with the values joined, selecting returns the value at a key or the initial value, and the table lattice's compare, join and meet satisfy the lattice laws pointwise.", "quantifier": "all tables over all value lattices", "why_tests_cant": "all tables", "anchors": ["base/scala/table.handcode.scala:M_TABLE", "base/scala/table.handcode.scala:M_TABLE_LATTICE"]}
{"id": "C51", "title": "Collections of the Scala library", "statement": "Scala MULTISET union/intersection/difference take the maximum/minimum/difference of the numbers of occurrences and <=, = compare them; LIST, SEQUENCE and STRING nth, position, subseq, butsubseq and length are those of the denoted sequence; tuples over a lattice form a lattice; x..y is the interval.", "quantifier": "all lists, multisets, sequences, strings, element types with an equivalence as equality", "why_tests_cant": "all values and indices", "anchors": ["base/scala/basic.handcode.scala:M_MULTISET", "base/scala/basic.handcode.scala:I_LIST", "base/scala/basic.handcode.scala:M_SEQUENCE", "base/scala/basic.handcode.scala:M_STRING", "base/scala/basic.handcode.scala:M_TUPLE_LATTICE"]}
{"id": "C56", "title": "A failed demand stays failed in the Scala runtime", "statement": "If demanding an attribute instance throws (and the client catches the exception), later demands of that instance throw the same exception again, whatever else is demanded in between; they never return a value.", "quantifier": "all equation systems, all sequences of succeeding and failing demands", "why_tests_cant": "all histories of demands with failures", "anchors": ["base/scala/aps-impl.scala:Evaluation.doEvaluate", "base/scala/aps-impl.scala:CircularEvaluation.detectedCycle"]}
{"id": "C47", "title": "A generated dynamic evaluator computes exactly what the equations of the program say", "statement": "The C++ or Scala function that apscpp/aps2scala generates for an attribute, a local attribute or a variable under dynamic evaluation returns, at every node, the value given by the first active equation in program order (for a collection: the combination of all values given by active equations, starting with the initial value), otherwise the default, otherwise throws; matches, conditions and pattern variables mean what the APS patterns mean, and no field or element is accessed that is not there.", "quantifier": "all programs (any nesting of if, case, both kinds of for, and locals), all patterns, all trees, all nodes, all values of the variables", "why_tests_cant": "the generator prints only the parts of the program that mention the attribute; whether dropping the rest changes the choice of a match depends on the whole program and on the tree", "anchors": ["apscpp/dyn-impl.cc: dump_Block, dump_Matches, dump_attr_assign, push_attr_context, pop_attr_context, activate_attr_context, implement_attributes, implement_local_attributes, implement_var_value_decls", "apscpp/dump-cpp.cc: dump_Pattern_cond, dump_seq_Pattern_cond, dump_Pattern_bindings", "aps2scala/dyn-impl.cc: dump_Block, dump_context_open, dump_context_close, implement_attributes"]}
{"id": "C57", "title": "Repeated demand of a module variable gives the same value", "statement": "Under dynamic evaluation in C++, every demand of a module-level variable after the first returns the value the first returned (the value of its equations).", "quantifier": "all programs, all trees, all histories of demands", "why_tests_cant": "a test that prints the variable once sees the right value; the memo is only read from the second demand on, after finish() has made the first", "anchors": ["apscpp/dyn-impl.cc: implement_var_value_decls, dump_attr_assign, note_var_value_decl", "apscpp/dump-cpp.cc: dump_vd_Default"]}
{"id": "C58", "title": "Every use of a name is bound to the declaration the scope rules give it", "statement": "After bind_Program, every use in the program is bound to the last declaration, of the innermost scope around it, of that name in the right namespace (for a qualified use T$x: among the services of the type T stands for); a use for which there is none is reported as unbound and no other is; and two declarations of the same name and namespace in one scope are reported.", "quantifier": "all programs (any nesting of blocks, matches, classes, modules, functions, polymorphic scopes, for and controlled expressions), all preludes, all uses", "why_tests_cant": "a wrong binding shows only in a program where two declarations of a name are in scope at once, and the combinations of constructs around a use are unbounded", "anchors": ["analyze/aps-bind.c: bind_Program, add_env_item, decl_namespaces, get_bindings, get_public_bindings, do_bind, bind_Use_by_name, bind_Use, bind_Declarations", "parse/aps-traverse.c: traverse_Program"]}
{"id": "C59", "title": "The static scheduler for circular grammars orders each production's computation by its dependencies", "statement": "For every production's augmented dependency graph with phases: the total order produced by static_scc_schedule is a tree in which along every path (choice of branches) each attribute instance is computed after everything it depends on; each child visit comes directly after all inherited attributes of that visit and directly before its synthesised attributes; the parent's visits end once each, in phase order, each after the synthesised attributes of the phase and followed by the inherited attributes of the next; nothing is done twice; instances are computed only under their condition; nothing needed is left out; and a schedule is found whenever the phases are sound.", "quantifier": "all inputs (instances with phases, conditions and conditionals; arbitrary dependency matrices; any number of children and phases, any mix of circular and non-circular phases), all branch assignments, all positions on the path", "why_tests_cant": "The greedy choice over components and chunks depends on the whole graph; failures (wrong order, dropped instance, infinite recursion) appear only for particular combinations of cycles, phases and conditions.", "anchors": ["analyze/aps-schedule.c:1164-2346 (group_schedule, local_chunk_schedule, chunk_schedule, chunk_component_schedule, chunk_ready_to_go, schedule_visit_start)", "analyze/aps-schedule.c:2348-2717 (collect_aug_graph_chunks)", "analyze/aps-schedule.c:2719-2838 (schedule_augmented_dependency_graph)"]}
{"id": "C60", "title": "The visit procedures of the static backend compute the solution of the attribute equations", "statement": "For every grammar with a valid visit schedule: the static code generator prints, for each production, one visit procedure per visit of its phylum; running visit() on any tree of the grammar (with the inherited attributes of the root supplied) terminates, reads no attribute before it is set, sets no attribute twice, leaves values that satisfy every equation of the tree (with the assignments selected by conditionals and matches, and defaults), and those values are the only solution. The visit entry point calls the procedure of the node's own constructor. The total orders computed by the OAG scheduler from dependency graphs meet the requirements on schedules.", "quantifier": "all grammars (any numbers of productions, instances, visits, nested conditionals), all value types and semantic functions, all trees, all outcomes of conditions, all initial stores with the root's inherited attributes", "why_tests_cant": "A wrong phase boundary, dropped default or misplaced visit only shows on particular combinations of schedule, conditional outcomes and tree shape, of which there are infinitely many.", "anchors": ["codegen/static-impl.cc:36-413 (make_instance_assignment, implement_visit_function)", "codegen/static-impl.cc:416-735 (dump_visit_functions, dump_visit)", "base/cpp/aps-impl.h:198-262 (Attribute::get, set)", "analyze/aps-oag.c (schedule_rest)"]}
{"id": "C61", "title": "Iterating over a syntactic sequence visits exactly its elements, in order", "statement": "After binding has set the next fields of a program, for every sequence of units, declarations, matches, expressions, patterns, types' actuals etc. anywhere in the syntax tree, however it is bracketed into nil/list/append nodes, the loop for (x = first_X(s); x; x = X_NEXT(x)) terminates and visits each element exactly once in textual order; the pass terminates and changes no other field.", "quantifier": "all syntax trees (any depth, any bracketing of sequences with nil nodes anywhere), all prior contents of the next fields", "why_tests_cant": "the parser only builds some of the bracketings, and a lost or doubly linked element shows only for particular shapes such as an empty sequence between two others", "anchors": ["analyze/aps-bind.c:748-1080 (X_set_next_Y, set_next_fields, first_X)", "parse/aps-traverse.c (traverse_X)"]}
{"id": "C48", "title": "The OAG analysis yields consistent visit phases for every phylum and a total order for every rule", "statement": "For every grammar whose dependency graphs have no cycle after closure, the ordered-attribute-grammar analysis terminates without an internal error, and either reports a cycle in the graphs it leaves (so the grammar is rejected) or has produced, for every phylum, phases in which inherited attributes have negative and synthesised ones positive numbers and nothing is in an earlier phase than something it depends on (all dependencies of the original grammar being respected), and for every rule a conditional total order in which, whichever way the conditionals go, every instance control reaches occurs exactly once, after everything it depends on in the rule, and the attributes of each node of the rule appear in the order of the phases of its phylum.", "quantifier": "all grammars (any number of phyla, rules, attributes), all assignments of the conditionals", "why_tests_cant": "the phases are chosen one phylum at a time and each choice adds dependencies to all rules; whether the combined orders are consistent depends on every rule and phylum at once", "anchors": ["analyze/aps-oag.c:8-116 (schedule_summary_dependency_graph)", "analyze/aps-oag.c:139-366 (schedule_rest, schedule_augmented_dependency_graph)", "analyze/aps-oag.c:368-415 (compute_oag)", "analyze/aps-dnc.c (dnc_close, close_augmented_dependency_graph)"]}
{"id": "C62", "title": "The dependency graph of a rule has exactly the dependencies of its equations", "statement": "For every rule body (declarations, assignments to attributes, locals and fields, conditionals, case and for statements, calls of local functions), the graph the analysis starts from has, for every equation and every choice of outcomes of the conditionals under which the equation is reached, a dependency of the value computed on every value the right-hand side reads and on every test that governs the equation; objects are passed on together with what is read from them (forward) and assigned to their fields (backward); between values there is no other dependency; and building the graph succeeds for every rule whose names are bound.", "quantifier": "all rule bodies (any nesting of conditionals, expressions and field accesses), all outcomes of the conditionals, all sets of fibers and numberings of instances", "why_tests_cant": "a dependency missed or invented for some combination of statement, nesting and expression form shows only in grammars that use that combination, as an evaluation order that is wrong on some trees", "anchors": ["analyze/aps-dnc.c:903-1030 (get_instance, dep_modifier_fiber, dep_vertex_instance)", "analyze/aps-dnc.c:1102-1150 (add_edges_to_graph)", "analyze/aps-dnc.c:1171-1466 (record_expression_dependencies, record_condition_dependencies, record_lhs_dependencies)", "analyze/aps-dnc.c:1473-1735 (get_edges)", "analyze/aps-dnc.c:1958-2010 (init_augmented_dependency_graph)"]}
{"id": "C50", "title": "The object flow analysis finds exactly the objects and uses that can meet", "statement": "For every module, the analysis that precedes fibering ends, and when it does, the set of objects it has for each declaration is exactly the set of objects that can get to it along assignments, initial values, parameters and results, patterns, loops, shared information passed from node to child, and fields (an object read from a field is one assigned to that field of an object that can be there); and the set of uses it has for each declaration is exactly the set of field references and shared variable uses its value can get to.", "quantifier": "all modules (any declarations, rules, functions, nesting of statements, expressions and patterns)", "why_tests_cant": "a flow missed for one combination of constructs loses the fibers that order field assignments before reads, visible only in grammars with that combination; and termination of the iteration needs the bound on all sets", "anchors": ["analyze/aps-fiber.c:1421-1532 (add_to_uset, add_to_oset, oset_union, uset_union)", "analyze/aps-fiber.c:1542-1842 (doUO, doUOp, doOU)", "analyze/aps-fiber.c:2063-2164 (compute_OU)", "analyze/aps-fiber.c:3211-3232 (fiber_module)"]}
{"id": "C63", "title": "The fiber tree has exactly the fibers of the automaton, and its construction ends", "statement": "For every automaton of field flow, the construction of the fiber tree ends with a tree or with the error that there are too many fibers, and for every automaton there is a size of the table with which it succeeds. Every node of the tree is one fiber (a word of fields), its set of places is exactly the places whose two states accept the word, its direction is the parity of the reversed fields; conversely every fiber of some place whose tails are fibers too is in the tree. The fiber set of a declaration is exactly the fibers both its states accept, by direction. Looking a fiber up field by field gives the node with exactly its states.", "quantifier": "all automata (edges, final states, fields), all fibers, all declarations", "why_tests_cant": "fibers are words of unbounded length; a merge of two nodes that should differ, or a transition lost, shows only in grammars with particular recursive field references", "anchors": ["analyze/aps-fiber.c:2447-2478 (add_FSA_edge)", "analyze/aps-fiber.c:2779-2997 (beclose, makeNode, same_DFA_node, get_same, is_reachable, check_transition, makeDFA)", "analyze/aps-fiber.c:3050-3101 (DFA_fiber_set)", "analyze/aps-fiber.c:3183-3195 (longer)", "analyze/aps-dnc.c:1005-1014 (dep_modifier_fiber)"]}
{"id": "C64", "title": "Every fiber of a declaration is found", "statement": "For every module (with at most 898 numbered declarations and uses) the fibers are found once the limits are large enough. The declarations that matter and the uses get numbers of their own. For every path of fields along which something done with the value of a declaration goes - a field is read, the value read is kept or passed on and a field of it is read, or a field is assigned - and which an object that can be in the declaration offers, there is one fiber in the tree that is in the fiber set (of its direction) of every declaration with that path.", "quantifier": "all modules in the form of the object flow analysis, all declarations, all paths of any length", "why_tests_cant": "paths have unbounded length and the flow goes through calls, patterns, loops, fields of fields and shared variables; a missed fiber shows only as a missing dependency between two rules", "anchors": ["analyze/aps-fiber.c:1905-2061 (id_decl_node, id_expr_node, count_node)", "analyze/aps-fiber.c:2169-2425 (link_expr_lhs_p, add_edges_oset, add_edges_uset, build_FSA)", "analyze/aps-fiber.c:2480-2755 (nodeset_union, set_of_node, link_expr_rhs, link_expr_lhs)", "analyze/aps-fiber.c:3198-3304 (fiber_module)"]}
{"id": "C65", "title": "From dependency graphs to evaluators", "statement": "For every grammar whose productions come with graphs of their direct dependencies: the dependency analysis (closing the graphs, summarising, finding phases and total orders) ends. If it reports no cycle, in either of its two checks, and every visit synthesises something, then the visit procedures printed evaluate every tree of the grammar: they run to the end without reading an attribute before it is set or setting one twice, and leave the one solution of the equations of the tree.", "quantifier": "all grammars with graphs that have the direct dependencies of the equations; all trees; all values of the inherited attributes of the root", "why_tests_cant": "five passes with tables in between have to fit together, for every grammar and for trees of every shape", "anchors": ["analyze/aps-analyze.c (order of the passes)", "analyze/aps-dnc.c (close_using_edge, augment_dependency_graph, dnc_close)", "analyze/aps-oag.c (compute_oag, schedule_augmented_dependency_graph, attribute_schedule)", "codegen/static-impl.cc:36-640"]}
{"id": "C66", "title": "From equations to evaluators", "statement": "For every grammar of productions with assignments, locals, defaults and nested if statements: the dependency graphs are made from the equations, the analysis ends, and if it reports no cycle and every visit synthesises something, the visit procedures printed evaluate every tree of the grammar and leave the one solution of its equations.", "quantifier": "all grammars of this form (phyla with any number of attributes, at most 32 conditionals in a production, nested in any way); all trees; all values of the inherited attributes of the root", "why_tests_cant": "the claim is about the whole way from source to evaluated tree, for all grammars and all trees", "anchors": ["analyze/aps-dnc.c:443-464, 647-895, 1290-2010", "analyze/aps-dnc.c (dnc_close)", "analyze/aps-oag.c", "codegen/static-impl.cc"]}
{"id": "C67", "title": "What passes the type check is well typed", "statement": "If the type check of a block of declarations, equations, conditionals, matches and loops reports nothing, the block is well typed: there are types for the variables declared without one, and at every use of something polymorphic types for its type parameters that have the elements the signatures ask for, such that every expression has the type asked for by its place (formal of a function, left side of an assignment, condition, element of what a loop runs over, default) and every pattern has the type of what is matched. The checker does not crash. What has been found for a type parameter is not changed later.", "quantifier": "all programs (declarations, aliases, polymorphic contours with element constraints, expressions, patterns and statements of any size)", "why_tests_cant": "type parameters are found in the order of the actuals, by side effects on the environments of uses; soundness is about all programs and all orders", "anchors": ["analyze/aps-type.c:33-317 (do_typechecking)", "analyze/aps-type.c:520-805 (infer_expr_type, check_expr_type)", "analyze/aps-type.c:978-1315 (check_actuals, infer_pattern_type, check_pattern_type, check_pattern_actuals)", "analyze/aps-type.c:1829-1976 (type_subst)", "analyze/aps-type.c:2249-2430 (check_type_subst, check_type_signatures)"]}
{"id": "C68", "title": "Equality of types is decided", "statement": "If no type is a name for something made from itself, the comparison of two types always ends; it accepts types that become the same when names of types are replaced by what they stand for and remote is dropped, and reports an error for any two other types.", "quantifier": "all pairs of types, of any depth, under all acyclic sets of type declarations", "why_tests_cant": "types nest without bound and names can stand for types with names in them", "anchors": ["analyze/aps-type.c:2088-2150 (base_type)", "analyze/aps-type.c:2161-2247 (base_type_equal, declarations_type_equal, check_type_equal)"]}
{"id": "C69", "title": "No false type errors", "statement": "A well-typed expression in which nothing is polymorphic passes the type check, and the type found for it is the one it has. (Not so for guards in patterns.)", "quantifier": "all well-typed expressions without polymorphic uses and loops, of any size", "why_tests_cant": "it is a claim about all well-typed expressions", "anchors": ["analyze/aps-type.c:520-805", "analyze/aps-type.c:1197-1268"]}
{"id": "C70", "title": "The scanner loses nothing, and blanks between tokens do not matter", "statement": "Every source text is scanned to its end. The pieces, put together, are the text; a piece that gives no token is a newline, a blank, a comment, or has been reported. A letter where a piece starts begins an identifier with all letters, digits and underscores that follow; a quote begins a constant that goes to the next quote that no backslash escapes. Writing the tokens with a blank after each and scanning that gives the same tokens (if no constant is unterminated).", "quantifier": "all source texts, of any length", "why_tests_cant": "longest match among 27 patterns with trailing context: that no other pattern matches more is about all texts", "anchors": ["parse/aps.lex:42-108"]}
{"id": "C71", "title": "Two hyphens are a comment", "statement": "Two hyphens in a row, wherever they are, are within one piece of the text, and that is a comment or a constant: no operator contains them, and they never are two tokens. Where a piece starts, they begin a comment that goes to the end of the line. (Not so: an operator right before a comment is scanned as an operator.)", "quantifier": "all source texts and all places in them", "why_tests_cant": "operators may contain hyphens; the claim is about all operators and what follows them", "anchors": ["parse/aps.lex:43-44", "parse/aps.lex:49-68"]}
{"id": "C72", "title": "Line numbers", "statement": "The line noted with a token is one more than the number of newlines before it that are not in constants.", "quantifier": "all source texts and all tokens", "why_tests_cant": "it depends on all patterns that can match a newline", "anchors": ["parse/aps.lex:47", "parse/aps.lex:69-79"]}
{"id": "C73", "title": "Names of operators and wildcards", "statement": "Different operators of at most 15 characters get different names in the generated code. Each wildcard gets a name of its own, which no identifier that starts with a letter has. (Longer operators overrun a buffer; an identifier that starts with an underscore can be a wildcard.)", "quantifier": "all source texts", "why_tests_cant": "the translation of characters is not injective in general; there are infinitely many operators", "anchors": ["parse/aps.lex:82-87", "parse/aps.lex:260-281", "parse/aps.lex:292-311"]}
{"id": "C74", "title": "Keywords", "statement": "Whatever has been read and whatever symbols have been made, a word is a keyword exactly if it is in the list of keywords, and then that one; the check of the table never fails.", "quantifier": "all histories of the symbol table after the scanner has been started, and all words", "why_tests_cant": "it rests on the first symbols keeping their places under all histories", "anchors": ["parse/aps.lex:112-239", "parse/aps.lex:312-329", "parse/symbol.c:33-77"]}
{"id": "C75", "title": "The tree of an expression", "statement": "An expression is read as a tree exactly if it is that tree written down and every operand belongs to the neighbouring operator that binds tighter (the higher level; at the same level the left one for infixl, the right one for infixr). There is at most one such tree; without one there is a syntax error. Parsing always ends.", "quantifier": "all sequences of tokens, of any length and nesting", "why_tests_cant": "expressions are unbounded; that conflicts between rules and tokens, decided one at a time, give the right tree as a whole is about all of them", "anchors": ["parse/aps.y:278-305", "parse/aps.y:1208-1318"]}
{"id": "C76", "title": "Parentheses, association and levels", "statement": "What is built for an expression means what was written: an operator's function is called with its operands from left to right. Any expression can be written: with parentheses around every operand it is read as it was meant. Operators of one level associate to the left if declared infixl and to the right if infixr, however many there are; of different levels the higher one has the operand between them; two of in and not in in a row are an error. (Not so: minus associates to the left.)", "quantifier": "all expressions, operands and operators", "why_tests_cant": "expressions and chains of operators are unbounded", "anchors": ["parse/aps.y:278-305", "parse/aps.y:1213-1272", "base/aps-builtin.aps:2-33"]}
{"id": "C77", "title": "Fixity declarations", "statement": "An operator has the level given by the declaration read before it, in its file or one read earlier; without one it has level 9 and associates to the left. No operator is declared twice and levels are from 0 to 9, or there is an error. (Not so: how a file is read depends only on the file.)", "quantifier": "all sequences of files", "why_tests_cant": "it is about all histories of declarations and files", "anchors": ["parse/aps.y:379-401", "parse/aps.lex:63-67", "parse/aps.lex:249-258"]}
{"id": "C78", "title": "public, private and var are lexical", "statement": "A definition is public exactly if the closest private or public before it in its body, or else the kind of body (a module or file starts public, a function private), says so; what is within a body does not influence what is after it. The same for var, if it is used for single declarations. (Not so: var; ends with the body.)", "quantifier": "all nestings of declarations and all sequences of files", "why_tests_cant": "nesting is unbounded; flags are global variables saved and restored by actions", "anchors": ["parse/aps.y:78-79", "parse/aps.y:354-371", "parse/aps.y:405-448", "parse/aps.y:549-566", "parse/aps.y:1121-1123"]}
{"id": "C79", "title": "Names of what has none", "statement": "Polymorphic declarations and others without a name get names, different ones within a file, which are not those of wildcards or of identifiers that start with a letter. In different files they are different if the names of the files differ in letters or digits.", "quantifier": "all names of files and all numbers of declarations", "why_tests_cant": "infinitely many names", "anchors": ["parse/aps.y:33-76", "parse/aps.y:1342-1345"]}
{"id": "C80", "title": "Reading programs", "statement": "Reading the programs in the command line always ends, also if files are with each other. If it ends well, exactly the files needed (those named, basic, and what these are with) have been read, each once, and each has been bound and checked; what is known of operators in a file is what the files read before it declare. It stops only if a file needed is missing or has a syntax error, or more than 100 are needed. (Not so: operators have the levels declared in the files a file is with; names with directories.)", "quantifier": "all sets of files, with any (also cyclic) uses, and all command lines", "why_tests_cant": "the uses of files form any graph; the order of reading depends on all of it", "anchors": ["analyze/aps-read.c:66-115", "analyze/aps-bind.c:212-237", "analyze/aps-bind.c:496-512", "analyze/aps-type.c:35-50", "analyze/aps-type.c:495-515", "aps2scala/aps2scala.cc:80-92"]}
{"id": "C81", "title": "Assignments in visit procedures of -C", "statement": "What a visit procedure printed with -C assigns to an attribute or local is its equation: the assignment that is active, or the default if there is none. (Not so with conditionals: the default is assigned, too; contributions to collections made outside a conditional are lost in a branch that contributes.)", "quantifier": "all productions, total orders, phases; both languages", "why_tests_cant": "all combinations of defaults, assignments and conditionals", "anchors": ["codegen/static-scc-impl.cc:106-180", "codegen/static-scc-impl.cc:235-817", "codegen/static-scc-impl.cc:844-907"]}
{"id": "C82", "title": "Circular attributes are evaluated statically", "statement": "The Scala evaluators printed with -C compute a solution of the equations, the least one for monotone equations, and end if the lattices have bounded height; for productions without conditionals and collections whose plans repeat what is circular. (Not so: circular locals that need each other; a circular chunk that is the first of a production; in C++.)", "quantifier": "all grammars, plans, trees, values and lattices", "why_tests_cant": "every fixed point on every tree, for all lattices", "anchors": ["codegen/static-scc-impl.cc:235-817", "codegen/static-scc-impl.cc:844-907", "codegen/static-scc-impl.cc:1024-1150", "aps2scala/dump-scala.cc:108-131", "base/scala/aps-impl.scala:225-283"]}
{"id": "C83", "title": "Visit procedures of -C are well-formed", "statement": "If the total order fits the production, its procedures are printed, one for each visit. Loops and conditionals in them are closed in the right order, loops are never nested and never empty, there are none in circular visits, none if no loop is required, and none in C++. The text determines the code.", "quantifier": "all productions, total orders with any conditionals and chunks, phases", "why_tests_cant": "beginnings of loops are held back; all orders of chunks and conditionals", "anchors": ["codegen/static-scc-impl.cc:32-94", "codegen/static-scc-impl.cc:106-180", "codegen/static-scc-impl.cc:235-817", "codegen/static-scc-impl.cc:844-907"]}
{"id": "C84", "title": "From dependencies to values, with circular attributes", "statement": "A grammar without conditionals and collections whose dependencies the chunk scheduler can order (cycles of direct dependencies only within circular phases of the left-hand side, or inside one visit or one local; something to do before the first circular part) is printed with -C, and the printed Scala evaluator computes, on every tree, the least solution of its (monotone) equations, and ends if the lattices have bounded height.", "quantifier": "all grammars, dependency graphs, trees, values and lattices", "why_tests_cant": "every grammar and every tree; scheduler, printing and evaluation together", "anchors": ["analyze/aps-schedule.c:2348-2717", "analyze/aps-schedule.c:2764-2785", "codegen/static-scc-impl.cc:235-817", "codegen/static-scc-impl.cc:1024-1150", "base/scala/aps-impl.scala:225-283"]}
{"id": "C85", "title": "Canonical types of type names", "statement": "The canonical type of a type expression means the type the expression means (formals of an instance replaced by its actuals, members of the instance qualified by it, the result of the module replaced by the instance), so two type expressions have one canonical type exactly if they mean the same type.", "quantifier": "all programs, type expressions and chains of aliases", "why_tests_cant": "examples/test-canonicals.aps compares some sixty names of four instances; the claim is about every combination of aliases, instances and qualified names.", "anchors": ["analyze/canonical-type.c:canonical_type (240-520)", "analyze/canonical-type.c:canonical_type_join (640-1000)", "examples/test-canonicals.aps"]}
{"id": "C86", "title": "Canonical signatures: identity and printing", "statement": "In every history of constructions two canonical signatures are the same object exactly if flags, class and actuals are the same; printing a set of signatures prints each once, sorted, and the text depends on the set only, not on where its elements are in memory.", "quantifier": "all histories of signatures and types, all hash values, line numbers and orders of addresses", "why_tests_cant": "the order of the elements of a set is the order of their addresses, which a test sees in one allocation pattern only", "anchors": ["analyze/canonical-signature.c:canonical_signature_equal", "analyze/canonical-signature.c:new_canonical_signature", "analyze/canonical-signature.c:print_canonical_signature_set"]}
{"id": "C87", "title": "Signatures of instances and extensions", "statement": "A type declared as an instance of a module has the signature of the module with its actuals, the signatures written for it, and the signatures of the module's result with the formals replaced by the actuals, and no others; a type has in addition the signatures of its base type; inference ends.", "quantifier": "all programs, instances and signatures", "why_tests_cant": "examples/test-canonicals.aps has modules with one formal only and no mutual extensions; the claim is about every combination", "anchors": ["analyze/canonical-signature.c:infer_canonical_signatures", "analyze/canonical-signature.c:from_declaration", "analyze/canonical-signature.c:substitute_canonical_signature_actuals", "analyze/canonical-type.c:canonical_type_base_type"]}
{"id": "C88", "title": "A traversal visits the whole tree", "statement": "On every tree that follows the grammar, the traversal of any phylum calls the callback on the root and then, unless it returned NULL, on the children from first to last with the argument it returned for their parent, and so on down: every node is visited exactly once, in the order of the text, except exactly those below a node for which NULL was returned; it never ends in the error for an unknown constructor.", "quantifier": "all trees of all phyla, all callbacks with any state", "why_tests_cant": "there are 126 constructors, and an analysis pass misses part of a program silently if one child of one of them is left out; only programs that use the construct in that place would show it", "anchors": ["parse/aps-traverse.c:traverse_Declaration", "parse/aps-traverse.c:traverse_Declaration_skip", "parse/aps-tree.aps"]}
{"id": "C89", "title": "The Lisp dump can be read back", "statement": "For every tree that follows the grammar and whose strings are tokens, the dump ends without error and a Lisp reader takes from it an expression with the constructor name, the line number and the children of each node, with symbols of any characters and strings in full; hence two trees with the same dump are equal but for the spelling of escapes in strings.", "quantifier": "all trees, symbols, string tokens, and all text after the dump", "why_tests_cant": "the claim is about every symbol and string with any characters in them, and every constructor", "anchors": ["parse/aps-tree-dump.c:dump_lisp_Program", "parse/aps-tree-dump.handcode.i:dump_lisp_String", "parse/aps-tree-dump.handcode.i:dump_lisp_Symbol", "parse/apsc.c:main"]}
{"id": "C90", "title": "Constructors, accessors and copies of trees", "statement": "A constructor function makes a node from which the accessor of each field returns the argument given for it; NULL or a node of another phylum as argument, and the accessor of another constructor, stop the program with an error; whatever is made by constructor calls follows the grammar in all its parts; a copy has the same constructors, symbols, strings and booleans, and none of its nodes is old or shared.", "quantifier": "all constructors, arguments, nodes, accessors, and all sequences of calls", "why_tests_cant": "126 constructors with 202 accessors and operator numbers: a clash of numbers or a swapped index shows only for that constructor; the grammar invariant is about all sequences of calls", "anchors": ["parse/aps-tree.c:Signature_KEY", "parse/aps-tree.c:mult_sig", "parse/aps-tree.c:copy_Type", "parse/tree.i:create_tnode", "parse/aps-tree.handcode.i"]}
{"id": "C91", "title": "A module has the services of the type it extends", "statement": "When a module extends a type, the Scala class generated for it has each service of that type that it does not declare itself, exactly once and taken from the value of that type, and no member that is neither declared nor a service; the search for the services ends.", "quantifier": "all programs of classes, modules, signatures and type declarations, all modules and extended types", "why_tests_cant": "services come through any chain of parent signatures, result types, renamings and parameters, and clash with each other and with the module's own declarations in any combination of four namespaces", "anchors": ["aps2scala/dump-scala.cc:ServiceRecord", "aps2scala/dump-scala.cc:dump_Class_service_transfers", "aps2scala/dump-scala.cc:dump_Signature_service_transfers", "aps2scala/dump-scala.cc:dump_Type_service_transfers", "analyze/aps-bind.c:decl_namespaces"]}
{"id": "C92", "title": "What a qualified name means", "statement": "A qualified name T$x is bound to the service x of the type T: for a type made with a module the last public declaration of x in the module, otherwise that of the module or parameter it extends, for a type parameter that of the classes of its signature, the later ones first; and it is bound to nothing only if there is no such service.", "quantifier": "all programs of classes, modules, signatures and types, all types and names", "why_tests_cant": "services come through any chain of definitions, renamings, instances, extended parameters and signatures", "anchors": ["analyze/aps-bind.c:type_services", "analyze/aps-bind.c:inst_services", "analyze/aps-bind.c:signature_services", "analyze/aps-bind.c:bind_Use"]}
{"id": "C93", "title": "Patterns in the generated Scala program", "statement": "A pattern of the source matches in the generated Scala program exactly the values it matches in the source, and each of its variables has the same value in what follows; whatever patterns were printed before.", "quantifier": "all patterns, names of variables, values matched, and everything printed before", "why_tests_cant": "patterns nest without bound, the names of nameless variables come from a global counter that every pattern printed before has moved", "anchors": ["aps2scala/dump-scala.cc:dump_Pattern", "aps2scala/dump-scala.cc:dump_pattern_call", "aps2scala/dump-scala.cc:dump_scala_pattern_function", "base/scala/aps-impl.scala:PatternFunction"]}
{"id": "C94", "title": "Code for expressions", "statement": "The code generated for an expression has, in C++ and in Scala, the value of the expression: constants, uses, calls with their actuals in order, and collections {a,b...,c} with the elements of their parts in the order of the text. For expressions that the generators cannot handle an error is reported.", "quantifier": "all expressions, values of variables, meanings of functions and collection types", "why_tests_cant": "expressions nest without bound; literals and collections have any length", "anchors": ["apscpp/dump-cpp.cc:dump_Expression", "apscpp/dump-cpp.cc:dump_collect_Actuals", "aps2scala/dump-scala.cc:dump_Expression", "aps2scala/dump-scala.cc:dump_collect_Actuals"]}
{"id": "C95", "title": "What the compilers accept, write and return", "statement": "In static mode a module is accepted exactly if its closed dependency graphs have no cycle that is neither monotone nor of fibers only and, with -S, no cycle is left when phases have been found; with -C nothing else is rejected. The compilers apply each option to the programs named after it. The exit status is 0 exactly if nothing is wrong with the command line and every program named passes reading, binding, typing and (in static mode) the analysis of all its modules; there is then an output for each, for the implementation asked for. Otherwise it is 1, and there are outputs exactly for the programs before the first thing that is wrong; never one for a program with errors.", "quantifier": "all command lines, programs, modules and dependency graphs", "why_tests_cant": "command lines have any length and options interact by position; dependency graphs are unbounded", "anchors": ["analyze/aps-analyze.c:analyze_thing", "analyze/aps-analyze.c:analyze_Program", "analyze/aps-debug.c:aps_check_error", "analyze/aps-debug.c:set_debug_flags", "apscpp/apscpp.cc:main", "aps2scala/aps2scala.cc:main", "aps2scala/dump-scala.cc:omit_declaration"]}
{"id": "C96", "title": "Where programs are found", "statement": "The search path is that of -p, else APSPATH, else the current directory; it is taken apart at its colons. The file read for a program is the one with its name and .aps in the first directory of the path that has it; the program cannot be found exactly if none has it. No path or name overflows a buffer. The program is called by the last part of the name.", "quantifier": "all paths, names and sets of files", "why_tests_cant": "paths and names have any length and any characters; the buffer bound is at the edge of MAXPATHLEN", "anchors": ["analyze/aps-read.c:set_aps_path", "analyze/aps-read.c:aps_open", "parse/aps.y:init_parser"]}
{"id": "C97", "title": "The traits of an instance", "statement": "In the Scala code for an instance of a module, the traits are exactly those of the public classes of the type, in order; every member that such a trait leaves abstract is declared by the module or defined in the instance, by taking it from the value of the base type; nothing else is defined, and nothing twice.", "quantifier": "all instances: all modules, all lists of classes and their declarations", "why_tests_cant": "any number of classes, with declarations of any names and kinds, in any order", "anchors": ["aps2scala/dump-scala.cc:dump_TypeDecl_Traits", "aps2scala/dump-scala.cc:dump_some_class_decl"]}
{"id": "C98", "title": "Parents of nodes and parts of rules", "statement": "After the binder has set the parents of a program, the parent of every node is the node it is a child of, and that of the program is NULL. A rule, match ?x=c(?a,...,?z), is taken apart into x, the constructor c is bound to, and the variables a to z in order, however its arguments are grouped; a match of any other form is reported as an error.", "quantifier": "all programs, all matches in them", "why_tests_cant": "trees of any shape; the loop over the right-hand side goes through the parent and next fields of nodes at any place in the program", "anchors": ["analyze/aps-info.c:set_tnode_parent", "analyze/aps-ag-util.c:match_lhs_decl", "analyze/aps-ag-util.c:match_constructor_decl", "analyze/aps-ag-util.c:match_first_rhs_decl", "analyze/aps-ag-util.c:next_rhs_decl"]}
{"id": "C99", "title": "Fields of families of declarations, and loops over sequences", "statement": "A function such as declaration_def, some_class_decl_parent or some_use, called on a node that the grammar's pattern of that name matches, returns the child at the place the pattern gives the field; on every other node it reports a fatal error, never another child. A FOR_SEQUENCE loop runs its body once for each element of the sequence, first to last, however the sequence was put together from nil, list and append.", "quantifier": "all functions of parse/aps-util.h, all well-formed nodes, all nine kinds of sequences, all loop bodies", "why_tests_cant": "sequences of any shape and size; every function on every constructor of the grammar", "anchors": ["parse/aps-util.c:declaration_def", "parse/aps-util.c:some_class_decl_parent", "parse/aps-util.c:some_use_u", "parse/aps-util.h:FOR_SEQUENCE"]}
{"id": "C100", "title": "Local attributes of rules", "statement": "Every attribute declared inside a top-level match (outside loops) becomes an attribute object of the generated module, exactly once, numbered in the order of the program; no two objects have the same name, none has that of an attribute of the module, and each use of a local names its own object. When a rule is run at a node and its matches and conditions lead to the block of a local, the function generated for the local, called at that node, computes the value the equations of that block give it with the pattern variables as the matches around it bind them.", "quantifier": "all programs of rules with nested if, case and locals, all nodes, all trees, both generators", "why_tests_cant": "nesting of any depth, any names, any number of locals, any tree", "anchors": ["apscpp/dump-cpp.cc:dump_local_attributes", "apscpp/dyn-impl.cc:implement_local_attributes", "apscpp/dyn-impl.cc:local_attribute_context_bindings", "aps2scala/dump-scala.cc:dump_local_attributes", "aps2scala/dyn-impl.cc:dump_local_context_begin"]}
{"id": "C101", "title": "Functions", "statement": "A call of a generated function returns the value that the statements of its body give to the result when the formals are the arguments; if they give none, its default; for a collection, the initial value combined with every value given. This holds for functions that call each other or themselves, to any depth of calls. A function with several results is not compiled without an error.", "quantifier": "all programs of (recursive) functions outside modules or under the dynamic implementation, all arguments, all depths of recursion, both generators", "why_tests_cant": "any arguments and any depth of recursion, any nesting of statements", "anchors": ["apscpp/dyn-impl.cc:implement_function_body", "apscpp/dump-cpp.cc:dump_cpp_Declaration", "aps2scala/dyn-impl.cc:implement_function_body", "aps2scala/dump-scala.cc:dump_scala_Declaration"]}
{"id": "C102", "title": "Generated files fit together", "statement": "The C++ compiler gets through the includes of a generated file whatever programs say `with` about each other, in circles too; it sees the declarations of `basic`, of the program and of every program these use, directly or not, each exactly once and in order, and nothing else; what follows a `with` comes after everything that this uses (unless it uses the program itself). In Scala a `with` imports the object that has the declarations of that program. Different programs have different guards and objects.", "quantifier": "all sets of programs, all graphs of `with`, all names", "why_tests_cant": "graphs of any size with cycles; whether two names collide is a question about all pairs of names", "anchors": ["apscpp/dump-cpp.cc:print_uppercase", "apscpp/dump-cpp.cc:dump_cpp_Program", "apscpp/dump-cpp.cc:dump_cpp_Unit", "aps2scala/dump-scala.cc:program_id", "aps2scala/dump-scala.cc:dump_scala_Program"]}
{"id": "C103", "title": "Types of a parameter in C++", "statement": "The C++ class generated for a module that extends a type parameter (under any name) inherits from the class of that parameter and has typedefs, taken from that class, for the public types that the parameter's signature offers and the module does not declare itself: every one, both for its class and its values, none twice, none that hides a declaration of the module, and no others. The search for them ends.", "quantifier": "all programs (classes, signatures, renamings, chains of types), all modules that extend a type", "why_tests_cant": "the graph of classes and signatures and the names in it are arbitrary; what is missing depends on everything that was found before", "anchors": ["apscpp/dump-cpp.cc:ServiceRecord", "apscpp/dump-cpp.cc:dump_Signature_service_transfers", "apscpp/dump-cpp.cc:dump_Type_service_transfers", "apscpp/dump-cpp.cc:dump_Type_superclass"]}
{"id": "C104", "title": "The tree that constructors make", "statement": "Calling generated constructors makes a tree: the parent of a node is the node that was made with it as a child (an argument for a formal whose type is a phylum, under any name) and null if there is none; a node never gets a second parent; children are made before parents; what a node was made with never changes; each phylum lists its nodes, and only those, at their numbers; after a phylum is closed it gets no more nodes; and the tags of constructors are their positions among the constructors of their type.", "quantifier": "all sets of constructors, phyla, types and their renamings; all sequences of calls with any arguments, with phyla closed at any time", "why_tests_cant": "histories of calls are unbounded and sharing of nodes between calls is arbitrary", "anchors": ["apscpp/dump-cpp.cc:dump_cpp_Declaration", "aps2scala/dump-scala.cc:type_is_syntax", "aps2scala/dump-scala.cc:dump_scala_Declaration", "base/cpp/aps-impl.h:set_parent", "base/cpp/aps-impl.cpp:Phylum::install", "base/cpp/aps-impl.cpp:Constructor::Constructor", "base/scala/aps-impl.scala:register", "base/scala/aps-impl.scala:Nodes.add"]}
{"id": "C105", "title": "Attributes and variables start with their defaults", "statement": "An attribute or variable that nothing was assigned to has the value that its declaration gives (its default, or the initial value or bottom of its type); reading it after assignments gives the last one or, for a collection, all of them, in order, combined with that value by the declared combination or that of its type; in C++, in Scala, and through the setters of input variables. In Scala a default that was read is final.", "quantifier": "all declarations (directions, defaults, local or not), all types with any initial value, bottom and combination, all sequences of assignments and reads", "why_tests_cant": "sequences of assignments and reads are unbounded; values and combinations are arbitrary", "anchors": ["aps2scala/dump-scala.cc:dump_some_attribute", "aps2scala/dump-scala.cc:dump_scala_Declaration", "apscpp/dump-cpp.cc:dump_some_attribute", "base/scala/aps-impl.scala:CollectionEvaluation", "base/scala/aps-impl.scala:CircularEvaluation", "base/cpp/aps-impl.h:Collection"]}
{"id": "C106", "title": "Constants of a module", "statement": "After an instance of a module is constructed, each member (constant, renaming of a value, type, renaming of a type) has the value of its expression, where names have the values that the members of these names have at the end; formals keep the values that were given. Nothing is read before it has its value. C++ and Scala give all members the same values.", "quantifier": "all modules: any number of members, expressions of any depth with any operations and calls of functions (recursive ones too), any values of formals", "why_tests_cant": "the members and their dependencies are unbounded; the operations and values are arbitrary", "anchors": ["apscpp/dump-cpp.cc:dump_cpp_Declaration", "apscpp/dump-cpp.cc:dump_vd_Default", "aps2scala/dump-scala.cc:dump_scala_Declaration"]}
{"id": "C107", "title": "Objects of top-level types", "statement": "When a generated C++ program has started, the variable of each type that is declared at top level points to an object that is what its declaration says (of the class of the module, with the objects of the types that it names as actuals), each declaration makes one object, types that are defined as another type share its object, and get_T() returns the object of T. The order in which variables are initialized (that of the declarations and of the files) makes no difference.", "quantifier": "all sets of declarations of top-level types and phyla, all orders of initialization", "why_tests_cant": "the number of declarations and orders is unbounded; the order of files is chosen by the linker", "anchors": ["apscpp/dump-cpp.cc:dump_cpp_Declaration", "apscpp/dump-cpp.cc:dump_Type_value"]}
{"id": "C108", "title": "Top-level values in C++", "statement": "When a generated C++ program has started, every value that is declared at top level has the value of its expression, whatever the order in which the files of the program are linked.", "quantifier": "all programs of any number of files and values, with expressions of any depth with any operations and calls of functions, and all orders of files", "why_tests_cant": "the dependencies and the orders of files are unbounded; the order of files is chosen by the linker, so a test sees one", "anchors": ["apscpp/dump-cpp.cc:dump_cpp_Declaration"]}
{"id": "C109", "title": "Top-level values in Scala", "statement": "In a generated Scala program, every value that is declared at top level has, when it is read, the value of its expression, whatever file's values are used first.", "quantifier": "all programs of any number of files and values, with expressions of any depth with any operations and calls of functions, and all orders in which files are first used", "why_tests_cant": "the dependencies and the orders of use are unbounded; objects are initialized when they are first used, so a test sees one order", "anchors": ["aps2scala/dump-scala.cc:dump_scala_Program", "aps2scala/dump-scala.cc:dump_scala_Declaration"]}

{
 "claims": [
  {
   "property": "C01",
   "status": "proved",
   "theorems": [
    "Aps.Props.C01_result",
    "Aps.Props.C01_terminates",
    "Aps.Props.C01_safe",
    "Aps.Props.C01_table",
    "Aps.Props.C01_history_independent"
   ],
   "note": "Twin-prime search: least larger twin, terminates if a twin exists, safe, table correct, independent of history."
  },
  {
   "property": "C02",
   "status": "proved",
   "theorems": [
    "Aps.Props.C02_probe_covers",
    "Aps.Props.C02_lookup_returns",
    "Aps.Props.C02_add_returns",
    "Aps.Props.C02_load"
   ],
   "note": "Probing covers the table and ends, load at most one half."
  },
  {
   "property": "C03",
   "status": "proved",
   "theorems": [
    "Aps.Props.C03_map",
    "Aps.Props.C03_size",
    "Aps.Props.C03_size_ptr"
   ],
   "note": "Map semantics for every history of additions, and size."
  },
  {
   "property": "C04",
   "status": "partial",
   "theorems": [
    "Aps.Props.C04_remove_exact_refuted",
    "Aps.Props.C04_duplicate_after_remove",
    "Aps.Props.C04_removed_is_absent_partial",
    "Aps.Props.C04_no_invented_value_partial",
    "Aps.Props.C04_first_remove_partial"
   ],
   "note": "The full property (removal deletes exactly one key) is false of the code; C04_remove_exact_refuted and C04_duplicate_after_remove prove the counterexamples, the _partial theorems prove what does hold for every history."
  },
  {
   "property": "C05",
   "status": "proved",
   "theorems": [
    "Aps.Props.C05_same_address_iff_equal",
    "Aps.Props.C05_content",
    "Aps.Props.C05_returns"
   ],
   "note": "Hash-consing: same address iff equal contents."
  },
  {
   "property": "C06",
   "status": "partial",
   "theorems": [
    "Aps.Props.C06_elements",
    "Aps.Props.C06_canonical",
    "Aps.Props.C06_array_with_duplicates_refuted",
    "Aps.Props.C06_array_high_address_refuted"
   ],
   "note": "Sets built one element at a time are canonical for every order; the array constructor is refuted for duplicate elements and for addresses above the signed range."
  },
  {
   "property": "C07",
   "status": "proved",
   "theorems": [
    "Aps.Props.C07_components_exact"
   ],
   "note": "Pointer level, every graph built by any accepted history of calls."
  },
  {
   "property": "C08",
   "status": "proved",
   "theorems": [
    "Aps.Props.C08_topological"
   ],
   "note": ""
  },
  {
   "property": "C09",
   "status": "partial",
   "theorems": [
    "Aps.Props.C09_add_vertex",
    "Aps.Props.C09_index",
    "Aps.Props.C09_add_edge_partial",
    "Aps.Props.C09_null_edge_refuted"
   ],
   "note": "Holds for non-NULL pointers; C09_null_edge_refuted proves that an edge naming NULL is accepted and recorded against the first vertex."
  },
  {
   "property": "C10",
   "status": "proved",
   "theorems": [
    "Aps.Props.C103_only",
    "Aps.Props.C103_cover_partial",
    "Aps.Props.C103_once",
    "Aps.Props.C103_ends",
    "Aps.Props.C103_extends_refuted",
    "Aps.Props.C103_renaming_refuted",
    "Aps.Props.C103_module_refuted",
    "Aps.Props.C106_cpp",
    "Aps.Props.C106_defined_partial",
    "Aps.Props.C106_scala_partial",
    "Aps.Props.C106_same",
    "Aps.Props.C106_ends",
    "Aps.Props.C106_order_refuted",
    "Aps.Props.C106_types_refuted",
    "Aps.Props.C106_scala_types_refuted",
    "Aps.Props.C101_cpp_partial",
    "Aps.Props.C101_scala_partial",
    "Aps.Props.C101_results",
    "Aps.Props.C101_collection_refuted",
    "Aps.Props.C101_result_refuted",
    "Aps.Props.C102_includes",
    "Aps.Props.C102_guards_partial",
    "Aps.Props.C102_imports",
    "Aps.Props.C102_objects_partial",
    "Aps.Props.C102_guards_refuted",
    "Aps.Props.C102_directory_refuted",
    "Aps.Props.C102_objects_refuted",
    "Aps.Props.C100_numbers",
    "Aps.Props.C100_names",
    "Aps.Props.C100_use",
    "Aps.Props.C100_env",
    "Aps.Props.C100_cpp_partial",
    "Aps.Props.C100_scala",
    "Aps.Props.C100_hidden_refuted",
    "Aps.Props.C104_cpp_partial",
    "Aps.Props.C104_scala",
    "Aps.Props.C104_one_parent",
    "Aps.Props.C104_order_cpp",
    "Aps.Props.C104_order_scala",
    "Aps.Props.C104_fields",
    "Aps.Props.C104_made",
    "Aps.Props.C104_numbers",
    "Aps.Props.C104_closed",
    "Aps.Props.C104_stays",
    "Aps.Props.C104_tags",
    "Aps.Props.C104_root_refuted",
    "Aps.Props.C104_renaming_refuted",
    "Aps.Props.C104_instance_refuted",
    "Aps.Props.C104_shared_refuted",
    "Aps.Props.C104_nil_refuted",
    "Aps.Props.C104_type_refuted",
    "Aps.Props.C109_values_partial",
    "Aps.Props.C109_reads_partial",
    "Aps.Props.C109_ends_partial",
    "Aps.Props.C109_files_refuted",
    "Aps.Props.C109_later_refuted",
    "Aps.Props.C10_lifo",
    "Aps.Props.C10_pop_push",
    "Aps.Props.C105_scala_partial",
    "Aps.Props.C105_cpp_partial",
    "Aps.Props.C105_vars_partial",
    "Aps.Props.C105_same_partial",
    "Aps.Props.C105_simple_refuted",
    "Aps.Props.C105_combiner_refuted",
    "Aps.Props.C105_circular_refuted",
    "Aps.Props.C105_bottom_refuted",
    "Aps.Props.C105_local_refuted",
    "Aps.Props.C105_late_refuted",
    "Aps.Props.C107_objects",
    "Aps.Props.C107_get",
    "Aps.Props.C107_starts_partial",
    "Aps.Props.C107_order",
    "Aps.Props.C107_notype_refuted",
    "Aps.Props.C107_renaming_refuted",
    "Aps.Props.C107_cycle_refuted",
    "Aps.Props.C108_values_partial",
    "Aps.Props.C108_linked_partial",
    "Aps.Props.C108_ends",
    "Aps.Props.C108_files_refuted",
    "Aps.Props.C108_later_refuted"
   ],
   "note": ""
  },
  {
   "property": "C11",
   "status": "proved",
   "theorems": [
    "Aps.Props.C11_same_symbol",
    "Aps.Props.C11_name",
    "Aps.Props.C11_find",
    "Aps.Props.C11_ids",
    "Aps.Props.C11_succeeds"
   ],
   "note": "Every history within the 4000-symbol limit, at the level of slot addresses."
  },
  {
   "property": "C12",
   "status": "proved",
   "theorems": [
    "Aps.Props.C12_fresh",
    "Aps.Props.C12_ends"
   ],
   "note": "Fresh, ends, no overflow of the name buffer, for every history."
  },
  {
   "property": "C13",
   "status": "proved",
   "theorems": [
    "Aps.Props.C13_disjoint",
    "Aps.Props.C13_inside_aligned",
    "Aps.Props.C13_succeeds",
    "Aps.Props.C13_release"
   ],
   "note": "Every history of allocation and release, in a flat address space, given malloc's contract."
  },
  {
   "property": "C14",
   "status": "partial",
   "theorems": [
    "Aps.Props.C14_build",
    "Aps.Props.C14_length",
    "Aps.Props.C14_realize",
    "Aps.Props.C14_substitute",
    "Aps.Props.C14_integer_refuted"
   ],
   "note": "Proved for make_string, make_saved_string, make_stub_string, conc_string, substitute_string; refuted for make_integer_string (C14_integer_refuted: wrong type code, any use is undefined)."
  },
  {
   "property": "C15",
   "status": "proved",
   "theorems": [
    "Aps.Props.C15_lists_end",
    "Aps.Props.C15_acons",
    "Aps.Props.C15_assoc",
    "Aps.Props.C15_rassoc",
    "Aps.Props.C15_setassoc",
    "Aps.Props.C15_table_get",
    "Aps.Props.C15_table_set"
   ],
   "note": "Heap level: lists may share tails; tables never do."
  },
  {
   "property": "C16",
   "status": "proved",
   "theorems": [
    "Aps.Props.C16_compare",
    "Aps.Props.C16_merge"
   ],
   "note": "Exact on satisfiable conditions; merge denotes the union."
  },
  {
   "property": "C17",
   "status": "proved",
   "theorems": [
    "Aps.Props.C17_join",
    "Aps.Props.C17_trans",
    "Aps.Props.C17_trans_meaning",
    "Aps.Props.C17_indirect"
   ],
   "note": "All laws on all 32-bit kinds, plus the meaning of each bit."
  },
  {
   "property": "C18",
   "status": "proved",
   "theorems": [
    "Aps.Props.C18_add_edge",
    "Aps.Props.C18_kind_bounds",
    "Aps.Props.C18_incomparable_refuted"
   ],
   "note": "Every built graph. C18_incomparable_refuted shows that comparable edges can remain in a set (harmless: kinds are exact)."
  },
  {
   "property": "C19",
   "status": "proved",
   "theorems": [
    "Aps.Props.C19_terminates_closed",
    "Aps.Props.C19_any_order"
   ],
   "note": "Program order with links and summaries, and every worklist order."
  },
  {
   "property": "C20",
   "status": "proved",
   "theorems": [
    "Aps.Props.C20_exact_any_order",
    "Aps.Props.C20_exact",
    "Aps.Props.C20_nothing_spurious"
   ],
   "note": "Exactly the enabled paths of the original graph, for the program's and every other order; with summaries: bounded by every mutual fixpoint."
  },
  {
   "property": "C21",
   "status": "proved",
   "theorems": [
    "Aps.Props.C21_exact",
    "Aps.Props.C21_least_closed"
   ],
   "note": "Exactly the paths; flag iff changed."
  },
  {
   "property": "C22",
   "status": "proved",
   "theorems": [
    "Aps.Props.C22_report",
    "Aps.Props.C22_after_closure"
   ],
   "note": "Exact report; after closure iff a path enabled under one assignment."
  },
  {
   "property": "C23",
   "status": "proved",
   "theorems": [
    "Aps.Props.C23_fixpoint",
    "Aps.Props.C23_nothing_spurious"
   ],
   "note": "Termination, mutual fixpoint, nothing spurious; every state as handed over by compute_dnc."
  },
  {
   "property": "C24",
   "status": "partial",
   "theorems": [
    "Aps.Props.C24_numbering",
    "Aps.Props.C24_reaches",
    "Aps.Props.C24_exclusive",
    "Aps.Props.C24_nested",
    "Aps.Props.C24_for_refuted"
   ],
   "note": "If/match numbering and condition assignment: reachability and exclusiveness proved for programs without `for` matches; C24_for_refuted exhibits the defect that for-statement matches all share index 0, so the full statement is false of the code."
  },
  {
   "property": "C25",
   "status": "proved",
   "theorems": [
    "Aps.Props.C25_schedule",
    "Aps.Props.C25_succeeds_iff"
   ],
   "note": "Phase assignment of the summary dependency graph: scheduling succeeds exactly when acyclic, and respects every dependency."
  },
  {
   "property": "C26",
   "status": "proved",
   "theorems": [
    "Aps.Props.C26_path",
    "Aps.Props.C26_exact",
    "Aps.Props.C26_succeeds_iff"
   ],
   "note": "Conditional total order: every path visits each enabled instance once in dependency order; succeeds exactly when an order exists."
  },
  {
   "property": "C27",
   "status": "partial",
   "theorems": [
    "Aps.Props.C27_bounds_refuted",
    "Aps.Props.C27_bounds_partial",
    "Aps.Props.C27_schedule",
    "Aps.Props.C27_graph",
    "Aps.Props.C27_total"
   ],
   "note": "The statement is false of the code: C27_bounds_refuted exhibits out-of-bounds writes for a phylum with one circular pair. Proved: 2n+2 elements suffice, n+1 suffice without circular attributes; the phases computed are correct (C27_schedule, C27_graph) and scheduling is total (C27_total)."
  },
  {
   "property": "C28",
   "status": "proved",
   "theorems": [
    "Aps.Props.C28_history",
    "Aps.Props.C28_make_cycles",
    "Aps.Props.C28_fiber_cycles"
   ],
   "note": "Any history of get_set/merge_sets, make_cycles and get_fiber_cycles on every closed state."
  },
  {
   "property": "C29",
   "status": "proved",
   "theorems": [
    "Aps.Props.C29_equal_hash",
    "Aps.Props.C29_equal_symm_trans",
    "Aps.Props.C29_canonical",
    "Aps.Props.C29_content",
    "Aps.Props.C29_null_refuted"
   ],
   "note": ""
  },
  {
   "property": "C30",
   "status": "partial",
   "theorems": [
    "Aps.Props.C30_total_preorder",
    "Aps.Props.C30_identity_partial",
    "Aps.Props.C30_same_line_refuted"
   ],
   "note": "Total preorder proved for every history; 0 only for identical types proved when the declarations involved are on different lines; refuted otherwise (two types declared on one line)."
  },
  {
   "property": "C31",
   "status": "proved",
   "theorems": [
    "Aps.Props.C31_worklist",
    "Aps.Props.C31_exactly_once",
    "Aps.Props.C31_membership",
    "Aps.Props.C31_no_duplicates",
    "Aps.Props.C31_intersection"
   ],
   "note": ""
  },
  {
   "property": "C32",
   "status": "proved",
   "theorems": [
    "Aps.Props.C32_meaning_unique",
    "Aps.Props.C32_value",
    "Aps.Props.C32_once",
    "Aps.Props.C32_complete"
   ],
   "note": "Every history of calls; value = meaning of equations; each equation at most once; complete. Non-circular attributes."
  },
  {
   "property": "C33",
   "status": "proved",
   "theorems": [
    "Aps.Props.C33_ends",
    "Aps.Props.C33_cycle_throws",
    "Aps.Props.C33_reason"
   ],
   "note": "Evaluation ends; cycles throw; in a history without failures the exception names the reason."
  },
  {
   "property": "C34",
   "status": "proved",
   "theorems": [
    "Aps.Props.C34_stable",
    "Aps.Props.C34_refused",
    "Aps.Props.C34_get_does_not_protect_refuted"
   ],
   "note": "After evaluate: stable and assignment refused, for every history. C34_get_does_not_protect_refuted records that reading by get gives no such protection."
  },
  {
   "property": "C35",
   "status": "proved",
   "theorems": [
    "Aps.Props.C35_combined",
    "Aps.Props.C35_default"
   ],
   "note": "Every history of calls, any combining function; refused contributions are not counted."
  },
  {
   "property": "C36",
   "status": "partial",
   "theorems": [
    "Aps.Props.C36_never_above_partial",
    "Aps.Props.C36_self_partial",
    "Aps.Props.C36_least_fixpoint_refuted"
   ],
   "note": "The full property is false of the code: C36_least_fixpoint_refuted (two mutually dependent circular attributes stop at 1, the only solution is 5). Proved: values never exceed any solution, for every monotone system and demand order; exact least fixpoint for an attribute that depends only on itself."
  },
  {
   "property": "C37",
   "status": "partial",
   "theorems": [
    "Aps.Props.C37_length",
    "Aps.Props.C37_length_overflow",
    "Aps.Props.C37_empty",
    "Aps.Props.C37_nth",
    "Aps.Props.C37_nth_from_end",
    "Aps.Props.C37_position",
    "Aps.Props.C37_position_from_end",
    "Aps.Props.C37_member",
    "Aps.Props.C37_subseq",
    "Aps.Props.C37_butsubseq",
    "Aps.Props.C37_butsubseq_from_end",
    "Aps.Props.C37_butlastn_long_refuted",
    "Aps.Props.C37_firstn_negative_refuted",
    "Aps.Props.C37_butlast",
    "Aps.Props.C37_butfirst",
    "Aps.Props.C37_firstn",
    "Aps.Props.C37_butnth",
    "Aps.Props.C37_first_last",
    "Aps.Props.C37_partition",
    "Aps.Props.C37_equal",
    "Aps.Props.C37_append",
    "Aps.Props.C37_string",
    "Aps.Props.C37_string_shape_refuted"
   ],
   "note": "Exact values for every tree and every argument in range. C37_butlastn_long_refuted and C37_firstn_negative_refuted: overlong/negative arguments do not behave as documented; C37_string_shape_refuted: printing depends on the tree shape. subseq_from_end does not compile when instantiated, so it is not modelled."
  },
  {
   "property": "C38",
   "status": "proved",
   "theorems": [
    "Aps.Props.C38_member",
    "Aps.Props.C38_union",
    "Aps.Props.C38_intersect",
    "Aps.Props.C38_difference",
    "Aps.Props.C38_less_equal",
    "Aps.Props.C38_equal",
    "Aps.Props.C38_less",
    "Aps.Props.C38_no_duplicates",
    "Aps.Props.C38_expr",
    "Aps.Props.C38_length",
    "Aps.Props.C38_length_bag_refuted"
   ],
   "note": ""
  },
  {
   "property": "C39",
   "status": "partial",
   "theorems": [
    "Aps.Props.C39_string",
    "Aps.Props.C39_injective",
    "Aps.Props.C39_min_refuted"
   ],
   "note": "Decimal printing is exact and injective except at INT_MIN (C39_min_refuted)."
  },
  {
   "property": "C40",
   "status": "partial",
   "theorems": [
    "Aps.Props.C40_nth",
    "Aps.Props.C40_nth_from_end",
    "Aps.Props.C40_position",
    "Aps.Props.C40_member",
    "Aps.Props.C40_butsubseq",
    "Aps.Props.C40_butsubseq_past_end_refuted",
    "Aps.Props.C40_subseq_value",
    "Aps.Props.C40_subseq_refuted",
    "Aps.Props.C40_firstn",
    "Aps.Props.C40_butfirst",
    "Aps.Props.C40_butlast_refuted",
    "Aps.Props.C40_butlast_right_iff",
    "Aps.Props.C40_butlast_short_refuted",
    "Aps.Props.C40_lastn_refuted",
    "Aps.Props.C40_position_from_end_refuted",
    "Aps.Props.C40_position_from_end_value"
   ],
   "note": "nth, position, member, butsubseq, firstn, butfirst exact; subseq, butlast, lastn, position_from_end are refuted (the C++ substr is called with an end instead of a length)."
  },
  {
   "property": "C41",
   "status": "partial",
   "theorems": [
    "Aps.Props.C41_combine",
    "Aps.Props.C41_select",
    "Aps.Props.C41_expression",
    "Aps.Props.C41_argument_unchanged_refuted"
   ],
   "note": "combine, select and expression exact; C41_argument_unchanged_refuted: combining changes its argument."
  },
  {
   "property": "C42",
   "status": "partial",
   "theorems": [
    "Aps.Props.C42_lattice",
    "Aps.Props.C42_order",
    "Aps.Props.C42_applyf1",
    "Aps.Props.C42_applyf1_monotone",
    "Aps.Props.C42_applyf2",
    "Aps.Props.C42_applyf2_monotone",
    "Aps.Props.C42_lift",
    "Aps.Props.C42_scala",
    "Aps.Props.C42_cpp",
    "Aps.Props.C42_cpp_refuted",
    "Aps.Props.C42_scala_join"
   ],
   "note": "Proved for Scala and for any representation whose equality is faithful; in C++ equality is pointer equality, so it holds only for shared nodes (C42_cpp) and fails for separately lifted equal values (C42_cpp_refuted)."
  },
  {
   "property": "C43",
   "status": "proved",
   "theorems": [
    "Aps.Props.C43_or",
    "Aps.Props.C43_and",
    "Aps.Props.C43_max",
    "Aps.Props.C43_min",
    "Aps.Props.C43_max_nan_refuted",
    "Aps.Props.C43_max_bottom_refuted",
    "Aps.Props.C43_union",
    "Aps.Props.C43_intersection"
   ],
   "note": "C43_max_nan_refuted: floating-point numbers are not totally ordered, so MAX_LATTICE over them is no lattice; C43_max_bottom_refuted: the given minimum must be one."
  },
  {
   "property": "C44",
   "status": "partial",
   "theorems": [
    "Aps.Props.C44_below_every_solution",
    "Aps.Props.C44_terminates",
    "Aps.Props.C44_no_internal_error",
    "Aps.Props.C44_least_fixpoint_partial",
    "Aps.Props.C44_no_false_alarm_partial",
    "Aps.Props.C44_least_fixpoint_refuted",
    "Aps.Props.C44_null_refuted"
   ],
   "note": "Real code, all equation systems and demand orders: demands terminate over bounded ranks (C44_terminates, no monotonicity needed), bookkeeping never fails internally (C44_no_internal_error), no returned value is above any (pre)solution (C44_below_every_solution). Values satisfy the equations and are least if no demand skips an instance when collecting a cycle (C44_least_fixpoint_partial, stated by a guarded variant that the code simulates); with skipping this is false (C44_least_fixpoint_refuted). Also false if the null value of the field is not the lattice bottom (C44_null_refuted), e.g. AndLattice."
  },
  {
   "property": "C45",
   "status": "proved",
   "theorems": [
    "Aps.Props.C45_invert",
    "Aps.Props.C45_direction"
   ],
   "note": "Direction inversion and instance direction."
  },
  {
   "property": "C46",
   "status": "proved",
   "theorems": [
    "Aps.Props.C46_fresh_index",
    "Aps.Props.C46_refused"
   ],
   "note": "Includes circular attributes."
  },
  {
   "property": "C49",
   "status": "partial",
   "theorems": [
    "Aps.Props.C49_pass",
    "Aps.Props.C49_acyclic_of_order",
    "Aps.Props.C49_summary_acyclic",
    "Aps.Props.C49_no_cycle_left_refuted",
    "Aps.Props.C49_condition_refuted",
    "Aps.Props.C49_scc_unchanged"
   ],
   "note": "C49_pass: exact result on every closed state; acyclic when the classes can be ordered (in a summary graph: when the class is the mutual-dependency class). In general false: C49_no_cycle_left_refuted (breaking makes a cycle) and C49_condition_refuted (conditions are conjoined, not disjoined)."
  },
  {
   "property": "C52",
   "status": "partial",
   "theorems": [
    "Aps.Props.C52_range",
    "Aps.Props.C52_negative_refuted",
    "Aps.Props.C52_minus_one_zero_refuted",
    "Aps.Props.C52_overflow_refuted"
   ],
   "note": "Exact for every range starting at 0 or above; a range starting below 0 need not end (C52_negative_refuted), the last index overflows at INT_MAX (C52_overflow_refuted)."
  },
  {
   "property": "C53",
   "status": "partial",
   "theorems": [
    "Aps.Props.C53_power",
    "Aps.Props.C53_power_negative",
    "Aps.Props.C53_scala_refuted",
    "Aps.Props.C53_scala_odd_refuted",
    "Aps.Props.C53_abs"
   ],
   "note": "Exact for non-negative exponents in the APS definition; the Scala odd test is wrong on negative numbers (C53_scala_refuted, C53_scala_odd_refuted)."
  },
  {
   "property": "C54",
   "status": "partial",
   "theorems": [
    "Aps.Props.C54_int_char_code",
    "Aps.Props.C54_char_code_int",
    "Aps.Props.C54_string_irrefl",
    "Aps.Props.C54_string_trans",
    "Aps.Props.C54_string_total",
    "Aps.Props.C54_string_less_equal",
    "Aps.Props.C54_order_ascii",
    "Aps.Props.C54_order_refuted"
   ],
   "note": "Strict total order; equal to character order exactly on ASCII strings (C54_order_ascii, C54_order_refuted)."
  },
  {
   "property": "C55",
   "status": "proved",
   "theorems": [
    "Aps.Props.C55_combine",
    "Aps.Props.C55_select",
    "Aps.Props.C55_meet",
    "Aps.Props.C55_compare_equal",
    "Aps.Props.C55_equal",
    "Aps.Props.C55_lattice",
    "Aps.Props.C55_compare",
    "Aps.Props.C55_meaning_refuted",
    "Aps.Props.C55_symbol_order_refuted"
   ],
   "note": "Also C55_meaning_refuted and C55_symbol_order_refuted for two documented readings that fail."
  },
  {
   "property": "C51",
   "status": "partial",
   "theorems": [
    "Aps.Props.C51_multiset_union",
    "Aps.Props.C51_multiset_intersect",
    "Aps.Props.C51_multiset_difference",
    "Aps.Props.C51_multiset_combine",
    "Aps.Props.C51_multiset_less_equal",
    "Aps.Props.C51_multiset_equal",
    "Aps.Props.C51_multiset_less",
    "Aps.Props.C51_bag_equal",
    "Aps.Props.C51_bag_order_refuted",
    "Aps.Props.C51_length",
    "Aps.Props.C51_nth",
    "Aps.Props.C51_nth_from_end",
    "Aps.Props.C51_position",
    "Aps.Props.C51_position_from_end_refuted",
    "Aps.Props.C51_subseq",
    "Aps.Props.C51_butsubseq",
    "Aps.Props.C51_firstn",
    "Aps.Props.C51_butfirst",
    "Aps.Props.C51_butfirstn",
    "Aps.Props.C51_butnth",
    "Aps.Props.C51_lastn_butlast_refuted",
    "Aps.Props.C51_sequence_nth",
    "Aps.Props.C51_sequence",
    "Aps.Props.C51_string_nth_from_end",
    "Aps.Props.C51_string_subseq",
    "Aps.Props.C51_string_butsubseq",
    "Aps.Props.C51_string_firstn_refuted",
    "Aps.Props.C51_string_position_refuted",
    "Aps.Props.C51_string_position_from_end_refuted",
    "Aps.Props.C51_string_member",
    "Aps.Props.C51_tuple_join",
    "Aps.Props.C51_tuple_meet",
    "Aps.Props.C51_tuple_compare",
    "Aps.Props.C51_tuple_lattice",
    "Aps.Props.C51_range",
    "Aps.Props.C51_range_negative_refuted",
    "Aps.Props.C51_range_overflow_refuted"
   ],
   "note": "Refuted parts: LIST and STRING position_from_end, STRING position (search for the collection itself), lastn/butlast (not supported), firstn of strings throws when too long, ranges from below 0 or whose ends sum too large never end, BAG equality depends on order."
  },
  {
   "property": "C56",
   "status": "partial",
   "theorems": [
    "Aps.Props.C56_failure_persists_partial",
    "Aps.Props.C56_same_failure_refuted",
    "Aps.Props.C56_no_value_refuted"
   ],
   "note": "Non-circular instances: never a value again, always a cyclic-attribute exception. Refuted: same exception again (undefined becomes cyclic), and for circular instances the second demand returns bottom as if it were the value."
  },
  {
   "property": "C47",
   "status": "partial",
   "theorems": [
    "Aps.Props.C47_cpp",
    "Aps.Props.C47_scala",
    "Aps.Props.C47_local",
    "Aps.Props.C47_skipped_match_refuted",
    "Aps.Props.C47_scala_no_default_refuted",
    "Aps.Props.C47_scala_for_refuted",
    "Aps.Props.C47_cpp_for_in_refuted",
    "Aps.Props.C47_last_pattern_refuted"
   ],
   "note": "Proved for all programs in which a match of a case statement that does not mention the attribute is not followed by one that does (and, in Scala, the default mentions it), and no sequence pattern has anything after `...`; each condition is shown to be needed by a _refuted theorem (the authors' own BUG comment in dyn-impl.cc, scala.MatchError, `{..., p}` on an empty sequence). `for` with matches is right in C++ and printed as C++ in Scala (C47_scala_for_refuted); `for \u2026 in` is right in Scala and refused in C++ (C47_cpp_for_in_refuted). Expressions are total functions of the variables; printing of types is not modelled."
  },
  {
   "property": "C57",
   "status": "partial",
   "theorems": [
    "Aps.Props.C57_history",
    "Aps.Props.C57_collection_partial",
    "Aps.Props.C57_repeat_refuted"
   ],
   "note": "Proved for collections; C57_history gives exactly what every history of demands returns, and C57_repeat_refuted shows that a variable that is not a collection returns its initial value from the second demand on (the equation sets s_x but never v_x)."
  },
  {
   "property": "C58",
   "status": "partial",
   "theorems": [
    "Aps.Props.C58_plain",
    "Aps.Props.C58_bound",
    "Aps.Props.C58_namespaces",
    "Aps.Props.C58_unbound",
    "Aps.Props.C58_duplicates_partial",
    "Aps.Props.C58_hiding_refuted",
    "Aps.Props.C58_poly_refuted",
    "Aps.Props.C58_empty_refuted"
   ],
   "note": "Bindings and unbound-name errors are characterised exactly (C58_plain, C58_bound, C58_unbound) for every program whose scope is not empty (C58_empty_refuted: otherwise the program is not looked at). Duplicates: every clash in a scope without polymorphic scopes is reported; C58_poly_refuted (a polymorphic scope between two clashing declarations hides the clash) and C58_hiding_refuted (legal hiding by an inner scope is reported as a duplicate) are defects of add_env_item. The services of a type are a parameter."
  },
  {
   "property": "C59",
   "status": "partial",
   "theorems": [
    "Aps.Props.C59_order_partial",
    "Aps.Props.C59_complete_partial",
    "Aps.Props.C59_phases",
    "Aps.Props.C59_visit",
    "Aps.Props.C59_finish",
    "Aps.Props.C59_guarded",
    "Aps.Props.C59_succeeds",
    "Aps.Props.C59_instances_refuted",
    "Aps.Props.C59_complete_refuted",
    "Aps.Props.C59_entry_refuted",
    "Aps.Props.C59_recursion_refuted"
   ],
   "note": "Order proved for parts (parent's inherited/synthesised attributes of a phase, child visits, locals) that have to come first (dependence without a cycle, or direct dependence outside cycles of direct dependences), under Ordered (no earlier phase end depends on a later phase) and Entry (what a phase needs is sure to be done before it); completeness for the parts sure to be done; block structure, phase order, no duplicates, guards and success (Sound phases) proved in full. Refuted: instance order inside a component (a local between two synthesised attributes of one phase comes first), completeness for locals that depend on the last phase, order without Entry, termination (two non-circular visits in a circular phase recurse for ever)."
  },
  {
   "property": "C60",
   "status": "partial",
   "theorems": [
    "Aps.Props.C60_evaluates",
    "Aps.Props.C60_inherited_only_refuted",
    "Aps.Props.C60_recursive_start_refuted",
    "Aps.Props.C60_contributions_refuted",
    "Aps.Props.C60_dispatch",
    "Aps.Props.C60_dispatch_refuted",
    "Aps.Props.C60_schedules"
   ],
   "note": "Proved in full for grammars meeting Valid: every visit synthesises something, first instance of a total order (after conditionals) belongs to the left-hand side, matches of different case statements not interleaved, start phylum not inside trees; C60_schedules derives all of Scheduled but definedness and non-interleaving from the dependency graph. Refuted without them: visits that only inherit are dropped, recursive start phyla, several contributions to one instance, C++ dispatch when a constructor has no top-level match. Not modelled: for-in statements, procedure calls, fibers and objects (kinds only), own instances of the module in visit()."
  },
  {
   "property": "C61",
   "status": "proved",
   "theorems": [
    "Aps.Props.C61_iterate",
    "Aps.Props.C61_frame",
    "Aps.Props.C61_unique"
   ],
   "note": "The seven kinds of linked sequences are one function in the model (their code is the same up to names); sequences of Types are not linked by the code and are traversed only. Match_info->header is not modelled."
  },
  {
   "property": "C48",
   "status": "proved",
   "theorems": [
    "Aps.Props.C48_oag"
   ],
   "note": "Starts from the state compute_dnc iterates on; the path through break_fiber_cycles between the two is not included (see C49). Hypotheses on the initial graphs: they are built by adding edges, instances of different nodes of a rule are different, every attribute of a phylum is inherited or synthesised, a conditional is one instance, and whenever a dependency exists only one way a conditional goes, the dependent instance waits for the test."
  },
  {
   "property": "C62",
   "status": "partial",
   "theorems": [
    "Aps.Props.C62_total",
    "Aps.Props.C62_reads_partial",
    "Aps.Props.C62_guards_partial",
    "Aps.Props.C62_nothing_else",
    "Aps.Props.C62_carries_partial",
    "Aps.Props.C62_numbered",
    "Aps.Props.C62_local_refuted",
    "Aps.Props.C62_collection_refuted"
   ],
   "note": "Two exceptions are real defects: a local declared inside a conditional gets no dependency on the test (C62_local_refuted) because the sink of record_condition_dependencies is looked up at the node responsible, where a local has no instance; and the initial value of a collection declared inside a rule gets no dependencies at all (C62_collection_refuted). Completeness for fibers is proved for flows of values; edges between the fibers of a new object and of shared values are modelled but not claimed."
  },
  {
   "property": "C50",
   "status": "partial",
   "theorems": [
    "Aps.Props.C50_terminates",
    "Aps.Props.C50_exact",
    "Aps.Props.C50_unique",
    "Aps.Props.C50_no_flow_missed",
    "Aps.Props.C50_attr_default_refuted"
   ],
   "note": "Exactness is proved for the flow graph of Spec/Points, which has every flow of the language except one the code does not know: the default of an attribute never gets into the attribute (C50_attr_default_refuted). Hypothesis of C50_exact: nothing is assigned to the module declaration; of C50_terminates: assignments are to variables, attributes or fields and calls have no more actuals than formals (otherwise the code reports a fatal error)."
  },
  {
   "property": "C63",
   "status": "partial",
   "theorems": [
    "Aps.Props.C63_terminates",
    "Aps.Props.C63_enough",
    "Aps.Props.C63_exact",
    "Aps.Props.C63_complete",
    "Aps.Props.C63_fiber_set",
    "Aps.Props.C63_has_fiber",
    "Aps.Props.C63_follow_sound",
    "Aps.Props.C63_follow_complete",
    "Aps.Props.C63_follow_refuted",
    "Aps.Props.C63_range_refuted"
   ],
   "note": "Looking a fiber up always succeeds only if no two fields lead from one fiber to the same states (C63_follow_complete): otherwise one transition replaces the other (C63_follow_refuted, an automaton; no APS module is known to produce it). The table of states has a fixed size that is not checked (C63_range_refuted)."
  },
  {
   "property": "C64",
   "status": "partial",
   "theorems": [
    "Aps.Props.C64_ends",
    "Aps.Props.C64_numbered",
    "Aps.Props.C64_no_fiber_missed_partial",
    "Aps.Props.C64_chain_refuted",
    "Aps.Props.C64_copy_refuted",
    "Aps.Props.C64_empty_refuted",
    "Aps.Props.C64_shared_refuted"
   ],
   "note": "Proved for paths in which every value read is kept, passed on or looked into at the end of the path, every value assigned is something, and assigned fields are those of local variables and attributes. Refuted otherwise: a field that is only looked into (C64_chain_refuted), a field copied directly to a field (C64_copy_refuted), a field assigned an empty collection (C64_empty_refuted), a field of what is in a shared variable assigned (C64_shared_refuted)."
  },
  {
   "property": "C65",
   "status": "partial",
   "theorems": [
    "Aps.Props.C65_evaluates_partial"
   ],
   "note": "Needs that every visit synthesises something (otherwise refuted: C60_inherited_only_refuted, C66_inherited_only_refuted) and that matches of one case statement are not interrupted by another case statement."
  },
  {
   "property": "C66",
   "status": "partial",
   "theorems": [
    "Aps.Props.C66_evaluates_partial",
    "Aps.Props.C66_inherited_only_refuted"
   ],
   "note": "Conditionals are if statements; locals are declared outside of them (C62_local_refuted); no objects, fibers, functions; every visit has to synthesise something: C66_inherited_only_refuted is a grammar accepted without a cycle whose evaluator leaves equations unsolved."
  },
  {
   "property": "C67",
   "status": "partial",
   "theorems": [
    "Aps.Props.C67_sound_partial",
    "Aps.Props.C67_found_once_partial",
    "Aps.Props.C67_loop_variable_refuted",
    "Aps.Props.C67_typed_pattern_refuted",
    "Aps.Props.C67_named_pattern_refuted",
    "Aps.Props.C67_crash_refuted"
   ],
   "note": "Types written for variables of loops, for patterns, and for variables of patterns whose type has to be found are not checked: C67_loop_variable_refuted, C67_typed_pattern_refuted, C67_named_pattern_refuted. C67_crash_refuted: a well-typed call makes the checker follow a null pointer. Modules and qualified uses are not in the model."
  },
  {
   "property": "C68",
   "status": "proved",
   "theorems": [
    "Aps.Props.C68_equality",
    "Aps.Props.C68_equality_sound"
   ],
   "note": "Fuel stands for the recursion of the code; enough of it always exists."
  },
  {
   "property": "C69",
   "status": "partial",
   "theorems": [
    "Aps.Props.C69_no_false_alarm_partial",
    "Aps.Props.C69_infers_partial",
    "Aps.Props.C69_guard_refuted"
   ],
   "note": "Only monomorphic expressions without loops; C69_guard_refuted: a guard in a pattern is always reported."
  },
  {
   "property": "C70",
   "status": "proved",
   "theorems": [
    "Aps.Props.C70_all_scanned",
    "Aps.Props.C70_identifier",
    "Aps.Props.C70_constant",
    "Aps.Props.C70_reprint",
    "Aps.Props.C70_unterminated_refuted"
   ],
   "note": "C70_unterminated_refuted: not for unterminated constants, which swallow the blank."
  },
  {
   "property": "C71",
   "status": "proved",
   "theorems": [
    "Aps.Props.C71_hyphens",
    "Aps.Props.C71_to_end_of_line",
    "Aps.Props.C71_operator_before_comment_refuted",
    "Aps.Props.C71_operator_at_end_refuted"
   ],
   "note": "C71_operator_before_comment_refuted, C71_operator_at_end_refuted: `=--` and an operator at the end of the file are not scanned as operators; a character is ignored with a message."
  },
  {
   "property": "C72",
   "status": "proved",
   "theorems": [
    "Aps.Props.C72_line",
    "Aps.Props.C72_escaped_newline_refuted"
   ],
   "note": "C72_escaped_newline_refuted: with newlines in constants the lines are too small."
  },
  {
   "property": "C73",
   "status": "partial",
   "theorems": [
    "Aps.Props.C73_operator_names",
    "Aps.Props.C73_long_operator_refuted",
    "Aps.Props.C73_wildcards",
    "Aps.Props.C73_wildcards_refuted"
   ],
   "note": "C73_long_operator_refuted: from 16 characters on the name is written past the end of a 20-byte buffer; C73_wildcards_refuted: `_ _1`."
  },
  {
   "property": "C74",
   "status": "proved",
   "theorems": [
    "Aps.Props.C74_keywords"
   ],
   "note": ""
  },
  {
   "property": "C75",
   "status": "proved",
   "theorems": [
    "Aps.Props.C75_tree",
    "Aps.Props.C75_total",
    "Aps.Props.C75_error",
    "Aps.Props.C75_unambiguous"
   ],
   "note": "Bison's way of resolving conflicts by levels is part of the model. Types, patterns, sequences and recovery from errors are not modelled."
  },
  {
   "property": "C76",
   "status": "partial",
   "theorems": [
    "Aps.Props.C76_parentheses",
    "Aps.Props.C76_meaning",
    "Aps.Props.C76_left",
    "Aps.Props.C76_right",
    "Aps.Props.C76_levels",
    "Aps.Props.C76_order",
    "Aps.Props.C76_in",
    "Aps.Props.C76_minus_refuted"
   ],
   "note": "C76_minus_refuted: `a - b - c` is a - (b - c) and `-a - b` is -(a - b), for all operands: '-' is in a %right line (aps.y:298)."
  },
  {
   "property": "C77",
   "status": "proved",
   "theorems": [
    "Aps.Props.C77_fixity",
    "Aps.Props.C77_given",
    "Aps.Props.C77_file_alone_refuted"
   ],
   "note": "C77_file_alone_refuted: what is known of operators stays in the symbol table for the files read later."
  },
  {
   "property": "C78",
   "status": "partial",
   "theorems": [
    "Aps.Props.C78_public",
    "Aps.Props.C78_constant_partial",
    "Aps.Props.C78_constant_refuted"
   ],
   "note": "C78_constant_partial needs that there is no `var;`; C78_constant_refuted: `var;` is never undone, not even for the next file."
  },
  {
   "property": "C79",
   "status": "proved",
   "theorems": [
    "Aps.Props.C79_names",
    "Aps.Props.C79_fresh",
    "Aps.Props.C79_files_refuted"
   ],
   "note": "C79_files_refuted: the files a-b.aps and a_b.aps give the same names."
  },
  {
   "property": "C80",
   "status": "partial",
   "theorems": [
    "Aps.Props.C80_ends",
    "Aps.Props.C80_needed",
    "Aps.Props.C80_stops",
    "Aps.Props.C80_sequence",
    "Aps.Props.C80_operators_refuted",
    "Aps.Props.C80_directories_refuted"
   ],
   "note": "C80_ends and C80_sequence are for all names, the others for names without directories; C80_directories_refuted: with a directory in its name a file is read twice, or until there are 100 programs; C80_operators_refuted: a file is parsed before those it is `with`, so their fixity declarations do not hold in it."
  },
  {
   "property": "C81",
   "status": "partial",
   "theorems": [
    "Aps.Props.C81_equations_partial",
    "Aps.Props.C81_default_refuted",
    "Aps.Props.C81_collection_refuted"
   ],
   "note": "C81_equations_partial is for productions without conditionals and collections. C81_default_refuted, C81_collection_refuted: with conditionals it is not so."
  },
  {
   "property": "C82",
   "status": "partial",
   "theorems": [
    "Aps.Props.C82_solves_partial",
    "Aps.Props.C82_least_partial",
    "Aps.Props.C82_terminates_partial",
    "Aps.Props.C82_printed",
    "Aps.Props.C82_first_refuted",
    "Aps.Props.C82_locals_refuted",
    "Aps.Props.C82_cpp_refuted"
   ],
   "note": "For plans (Spec/SccGen: Planned) without conditionals and collections, Scala. C82_locals_refuted, C82_first_refuted: total orders of the chunk scheduler that are no such plans, and the result is no solution; C82_cpp_refuted: no loops in C++."
  },
  {
   "property": "C83",
   "status": "proved",
   "theorems": [
    "Aps.Props.C83_balanced",
    "Aps.Props.C83_cpp",
    "Aps.Props.C83_unique",
    "Aps.Props.C83_prints"
   ],
   "note": "for-in statements and the module's own procedure are not modelled."
  },
  {
   "property": "C84",
   "status": "partial",
   "theorems": [
    "Aps.Props.C84_planned_partial",
    "Aps.Props.C84_evaluates_partial"
   ],
   "note": "C84_planned_partial: the total orders of the scheduler are plans; C84_evaluates_partial: with C82, from the input of the scheduler to the values. Without conditionals and collections; the conditions on the dependencies (Spec/SccPlan: Calm, Linked) are assumed. C82_locals_refuted, C82_first_refuted, C59_complete_refuted, C59_instances_refuted: without them it is not so."
  },
  {
   "property": "C85",
   "status": "partial",
   "theorems": [
    "Aps.Props.C85_meaning_partial",
    "Aps.Props.C85_unique",
    "Aps.Props.C85_identity_partial",
    "Aps.Props.C85_nested_result_refuted",
    "Aps.Props.C85_three_levels_refuted",
    "Aps.Props.C85_nested_qual_refuted",
    "Aps.Props.C85_global_qual_refuted",
    "Aps.Props.C85_direct_result_refuted"
   ],
   "note": "C85_meaning_partial and C85_identity_partial: for unnested modules whose definitions have at most two `$` (Spec/CanonTy: Flat). C85_unique: a type expression means at most one type. The unrestricted claim is false: C85_nested_result_refuted (G0$I$D and H0$I$D both get `I`), C85_three_levels_refuted, C85_nested_qual_refuted, C85_global_qual_refuted, C85_direct_result_refuted."
  },
  {
   "property": "C86",
   "status": "partial",
   "theorems": [
    "Aps.Props.C86_identity",
    "Aps.Props.C86_printed",
    "Aps.Props.C86_order_partial",
    "Aps.Props.C86_order_refuted"
   ],
   "note": "C86_identity and C86_printed in full. C86_order_partial needs declarations on lines with different numbers; C86_order_refuted: otherwise the text printed depends on addresses."
  },
  {
   "property": "C87",
   "status": "partial",
   "theorems": [
    "Aps.Props.C87_instance_partial",
    "Aps.Props.C87_base",
    "Aps.Props.C87_deterministic",
    "Aps.Props.C87_swap_refuted",
    "Aps.Props.C87_ends_refuted"
   ],
   "note": "C87_base and C87_deterministic in full; C87_instance_partial for instances whose actuals are not formals of the same module. C87_swap_refuted: in PAIR[A,B], PAIR[B,A] gets PAIR[A,B]; C87_ends_refuted: two types that extend each other make inference loop."
  },
  {
   "property": "C88",
   "status": "proved",
   "theorems": [
    "Aps.Props.C88_traverse",
    "Aps.Props.C88_skip",
    "Aps.Props.C88_reached",
    "Aps.Props.C88_once"
   ],
   "note": "In full, for every callback that does not change the tree."
  },
  {
   "property": "C89",
   "status": "proved",
   "theorems": [
    "Aps.Props.C89_dump",
    "Aps.Props.C89_injective",
    "Aps.Props.C89_text",
    "Aps.Props.C89_tab_refuted",
    "Aps.Props.C89_past_end_refuted"
   ],
   "note": "In full for string tokens. C89_text: the text read is that of C if the only escapes are \\n, \\\\, \\\" and \\'; C89_tab_refuted: \\t is read as t; C89_past_end_refuted: a string that ends in a backslash, or has only an opening quote, is read past its end."
  },
  {
   "property": "C90",
   "status": "proved",
   "theorems": [
    "Aps.Props.C90_construct",
    "Aps.Props.C90_checked",
    "Aps.Props.C90_wrong_accessor",
    "Aps.Props.C90_made",
    "Aps.Props.C90_copy",
    "Aps.Props.C90_copy_line_refuted"
   ],
   "note": "In full; arguments of a copy are evaluated from left to right in the model. C90_copy_line_refuted: copies get the current line number, not that of the original."
  },
  {
   "property": "C91",
   "status": "partial",
   "theorems": [
    "Aps.Props.C91_only",
    "Aps.Props.C91_cover_partial",
    "Aps.Props.C91_once_partial",
    "Aps.Props.C91_src_partial",
    "Aps.Props.C91_ends_partial",
    "Aps.Props.C91_phylum_refuted",
    "Aps.Props.C91_constructor_refuted",
    "Aps.Props.C91_procedure_refuted",
    "Aps.Props.C91_src_refuted",
    "Aps.Props.C91_TYPE_refuted",
    "Aps.Props.C91_renaming_refuted"
   ],
   "note": "Proved for types that are not phyla and not defined with a module that extends its own parameter; refuted for the rest: C91_phylum_refuted (endless recursion for a phylum), C91_constructor_refuted (a member defined twice), C91_procedure_refuted (a service lost), C91_src_refuted (taken from a name of another module), C91_TYPE_refuted, C91_renaming_refuted. Substitution of type parameters is part of the given program; services inside polymorphic scopes are left out."
  },
  {
   "property": "C92",
   "status": "partial",
   "theorems": [
    "Aps.Props.C92_services",
    "Aps.Props.C92_qualified",
    "Aps.Props.C92_own",
    "Aps.Props.C92_parent_refuted",
    "Aps.Props.C92_plain_refuted",
    "Aps.Props.C92_forward_refuted",
    "Aps.Props.C92_phylum_refuted"
   ],
   "note": "C92_services and C92_qualified are exact for what the code takes to be the services, once all modules are bound. The user's claim is false: C92_parent_refuted (parents of classes are not searched: T :: ORDERED[] has no services), C92_plain_refuted (modules that extend nothing lack the services of every type), C92_forward_refuted (an extending module further down is not known to extend), C92_phylum_refuted (fatal error)."
  },
  {
   "property": "C93",
   "status": "partial",
   "theorems": [
    "Aps.Props.C93_match",
    "Aps.Props.C93_form",
    "Aps.Props.C93_named",
    "Aps.Props.C93_rule",
    "Aps.Props.C93_program",
    "Aps.Props.C93_nameless_refuted",
    "Aps.Props.C93_reset_refuted",
    "Aps.Props.C93_history_refuted",
    "Aps.Props.C93_literal_refuted",
    "Aps.Props.C93_operator_refuted"
   ],
   "note": "C93_match holds of every pattern that is printed as legal Scala; C93_form says exactly which have the form, C93_named and C93_rule give legality for patterns without `?` and for the patterns of rules; C93_program composes with C47. The full claim is false: C93_nameless_refuted, C93_reset_refuted, C93_history_refuted (nameless variables get the same name, so Scala rejects the program, depending on what was printed before), C93_literal_refuted (literals inside patterns are printed as guards in the middle), C93_operator_refuted (a variable named by an operator is bound under one name and used under another)."
  },
  {
   "property": "C94",
   "status": "partial",
   "theorems": [
    "Aps.Props.C94_value",
    "Aps.Props.C94_defined",
    "Aps.Props.C94_error",
    "Aps.Props.C94_elements",
    "Aps.Props.C94_octal_refuted",
    "Aps.Props.C94_large_refuted",
    "Aps.Props.C94_stopper_refuted"
   ],
   "note": "C94_value, C94_defined, C94_error and C94_elements hold for all expressions whose integer literals are decimal without leading zero and below 2^31 and in which no function but {} takes a sequence of actuals. Otherwise false: C94_octal_refuted (010 is 8 in C++, rejected by Scala), C94_large_refuted (3000000000 becomes negative in C++), C94_stopper_refuted (Scala functions get an extra actual 0)."
  },
  {
   "property": "C95",
   "status": "partial",
   "theorems": [
    "Aps.Props.C95_not_dnc",
    "Aps.Props.C95_static",
    "Aps.Props.C95_scc",
    "Aps.Props.C95_ends_partial",
    "Aps.Props.C95_lines",
    "Aps.Props.C95_success",
    "Aps.Props.C95_failure",
    "Aps.Props.C95_output",
    "Aps.Props.C95_unwritable_refuted",
    "Aps.Props.C95_overrun_refuted",
    "Aps.Props.C95_each_cycle_refuted"
   ],
   "note": "C95_not_dnc, C95_static, C95_scc, C95_lines, C95_success, C95_failure and C95_output hold for all modules and command lines (with at most 80 --omit and 40 --impl). False in general: C95_each_cycle_refuted (kinds of different cycles are put together before the test), C95_unwritable_refuted (apscpp returns 0 when an output cannot be opened), C95_overrun_refuted (-p or --impl at the end of the line, 81 --omit). C95_ends_partial: the analysis ends with -C, and with -S unless fiber cycles have to be broken. compute_static_schedule is a parameter (C59)."
  },
  {
   "property": "C96",
   "status": "partial",
   "theorems": [
    "Aps.Props.C96_dirs",
    "Aps.Props.C96_dirs_unique",
    "Aps.Props.C96_open",
    "Aps.Props.C96_name",
    "Aps.Props.C96_empty_refuted"
   ],
   "note": "C96_dirs, C96_dirs_unique, C96_open and C96_name hold for all strings. False in general: C96_empty_refuted (an empty directory in the path means the root directory)."
  },
  {
   "property": "C97",
   "status": "partial",
   "theorems": [
    "Aps.Props.C97_traits",
    "Aps.Props.C97_only",
    "Aps.Props.C97_cover_partial",
    "Aps.Props.C97_procedure_refuted",
    "Aps.Props.C97_once_partial",
    "Aps.Props.C97_constructor_refuted"
   ],
   "note": "C97_traits and C97_only hold for all instances. False in general: C97_procedure_refuted (a member with the name of a procedure of an earlier class stays undefined), C97_constructor_refuted (a function of the module is replaced if a class has a constructor of its name); the _partial theorems are for other names."
  },
  {
   "property": "C98",
   "status": "proved",
   "theorems": [
    "Aps.Props.C98_parents",
    "Aps.Props.C98_shared_refuted",
    "Aps.Props.C98_rule",
    "Aps.Props.C98_refused",
    "Aps.Props.C98_constructor"
   ],
   "note": "For trees without sharing; that the binder links the arguments of pattern calls is C61 (hypothesis Prepared.links). C98_shared_refuted: with a shared node the parent is the last one."
  },
  {
   "property": "C99",
   "status": "proved",
   "theorems": [
    "Aps.Props.C99_field",
    "Aps.Props.C99_use",
    "Aps.Props.C99_for"
   ],
   "note": "The cases of the functions and the patterns of aps-tree.aps are both extracted from the source. Loop bodies that leave the loop early or change the sequence are not covered."
  },
  {
   "property": "C100",
   "status": "partial",
   "theorems": [],
   "note": "In C++ the variables of all matches around a local are declared in one block, so a match hiding a variable of an outer one gives a function the compiler refuses (C100_hidden_refuted); C100_cpp_partial excludes that. Scala has no such exception. Locals in loops are refused or skipped by the generators (see C47)."
  },
  {
   "property": "C101",
   "status": "partial",
   "theorems": [],
   "note": "The cases where C47 fails are excluded (a case whose match does not mention the result), and so is a function without body whose result is a collection with a combiner, which gets no code (C101_collection_refuted); one without result but with a body crashes the generator (C101_result_refuted). Not modelled: sequence formals, a local with the name of something the default uses, statically scheduled functions."
  },
  {
   "property": "C102",
   "status": "partial",
   "theorems": [],
   "note": "The includes are correct if guards are macros, all different (C102_includes); this is so for names of small letters, digits and underscores (C102_guards_partial, C102_objects_partial). It is not so for names that differ in - and _, in case, or in the directory: the declarations of the second are lost (C102_guards_refuted, C102_directory_refuted); the Scala objects of a-b and a_b are the same, and a with of a program in a directory imports an object that does not exist (C102_objects_refuted). Not modelled: non-ASCII characters, what the .cpp has after its includes."
  },
  {
   "property": "C103",
   "status": "partial",
   "theorems": [],
   "note": "C103_only, C103_once and C103_ends hold in general. Not every type is there: those that a module used as a signature gets from what it extends are not (C103_extends_refuted), nor is one with the name of a nested module of the signature (C103_module_refuted); a renamed signature gives an error (C103_renaming_refuted). Substitution of actual parameters is taken as done; type environments and type actuals in the printed names are left out."
  },
  {
   "property": "C104",
   "status": "partial",
   "theorems": [],
   "note": "Everything holds in Scala (C104_scala, C104_one_parent, C104_stays), provided no argument is nil. In C++ the parent is the last node made with the child, and only if phyla are named directly (C104_cpp_partial): for renamed phyla and instances of phylum modules it is not set (C104_renaming_refuted, C104_instance_refuted); a root's parent is uninitialized (C104_root_refuted); a shared child loses its first parent (C104_shared_refuted); nil is undefined behaviour (C104_nil_refuted); a constructor of a type with a formal of a phylum does not compile (C104_type_refuted)."
  },
  {
   "property": "C105",
   "status": "partial",
   "theorems": [],
   "note": "C105_cpp_partial holds for all collections and C105_vars_partial for all setters, unless a collection has an initial value and no combination (C105_combiner_refuted: nothing can be generated); C105_scala_partial for attributes except, too: collections with a simple default (C105_simple_refuted, C105_bottom_refuted: it is not what contributions are added to) locals with one (C105_local_refuted); and circular ones, outside of cycles, that are assigned to (C105_circular_refuted: an exception). In C++ a collection still changes after it was read (C105_late_refuted). Code of the module that is printed into the class (compute) and cycles are in C47 and C82."
  },
  {
   "property": "C106",
   "status": "partial",
   "theorems": [],
   "note": "C106_cpp: if the constructor is defined, the equations hold. It is defined if members use only earlier ones where types come first (C106_defined_partial), otherwise it may read what is not initialized (C106_order_refuted, C106_types_refuted). In Scala the equations hold if members use only earlier ones (C106_scala_partial); others get what null or 0 gives (C106_order_refuted, C106_scala_types_refuted). C106_same: where the order is right both agree. C106_ends: if calls of functions end, the constructor does."
  },
  {
   "property": "C107",
   "status": "partial",
   "theorems": [],
   "note": "C107_objects, C107_get and C107_order hold for all programs that start. C107_starts_partial: they do if declarations refer only to types that are defined by instances or other types, and not to themselves. Otherwise: a type without a definition has no get_T (C107_notype_refuted), a renaming has no semicolon (C107_renaming_refuted): the C++ cannot be compiled; a type that needs itself is undefined (C107_cycle_refuted)."
  },
  {
   "property": "C108",
   "status": "partial",
   "theorems": [],
   "note": "C108_values_partial and C108_linked_partial: for values that use native values, numbers with a name, and what comes before them in the same file. Values of other files may still be 0, as the linker decides (C108_files_refuted), and so are later ones of the same file (C108_later_refuted). Top-level renamings of values are not modelled: the generator omits '=' before the expression, so their C++ cannot be compiled. C108_ends: if calls of functions end, the program starts."
  },
  {
   "property": "C109",
   "status": "partial",
   "theorems": [],
   "note": "C109_values_partial and C109_reads_partial: if files do not need each other in a cycle, and values use only what comes before them in their file. Otherwise values are null or 0: C109_files_refuted (no value needs itself; the file that is used first decides), C109_later_refuted. Types and threads are not modelled. C109_ends_partial: if calls of functions end, so does initialization."
  }
 ]
}
{
 "claims": [
  {
   "property": "C01",
   "status": "proved",
   "theorems": [
    "Verif.Props.C01_pre_reach_exact"
   ],
   "note": ""
  },
  {
   "property": "C02",
   "status": "proved",
   "theorems": [
    "Verif.Props.C02_img_reach_exact",
    "Verif.Props.C02_img_reach_mirror"
   ],
   "note": ""
  },
  {
   "property": "C03",
   "status": "proved",
   "theorems": [
    "Verif.Props.C03_closure_within_greatest"
   ],
   "note": ""
  },
  {
   "property": "C04",
   "status": "proved",
   "theorems": [
    "Verif.Props.C04_cycle_ck_exact"
   ],
   "note": ""
  },
  {
   "property": "C05",
   "status": "partial",
   "theorems": [
    "Verif.Props.C05_cycle_ck_diverges",
    "Verif.Props.C05_cycle_ck_partial"
   ],
   "note": "The full statement is false of the code: C05_cycle_ck_diverges is a two-state witness of non-termination. Proved: any returned verdict is right; termination when exits from the set reach no cycle."
  },
  {
   "property": "C06",
   "status": "proved",
   "theorems": [
    "Verif.Props.C06_layers_exact"
   ],
   "note": ""
  },
  {
   "property": "C07",
   "status": "proved",
   "theorems": [
    "Verif.Props.C07_process_cycle_ck_exact"
   ],
   "note": ""
  },
  {
   "property": "C08",
   "status": "proved",
   "theorems": [
    "Verif.Props.C08_probabilistic_livelock_exact"
   ],
   "note": ""
  },
  {
   "property": "C09",
   "status": "proved",
   "theorems": [
    "Verif.Props.C09_weak_convergence_exact"
   ],
   "note": ""
  },
  {
   "property": "C10",
   "status": "proved",
   "theorems": [
    "Verif.Props.C10_weak_convergence_layers_exact"
   ],
   "note": ""
  },
  {
   "property": "C100",
   "status": "partial",
   "theorems": [
    "Verif.Props.C100_assume_back",
    "Verif.Props.C100_legit_back_partial",
    "Verif.Props.C100_global",
    "Verif.Props.C100_legit_weaker"
   ],
   "note": "Assumptions are complete. Missing: later invariants that are disjunctions, implications, equivalences or choices, for which the statement is false (C100_legit_weaker)."
  },
  {
   "property": "C101",
   "status": "partial",
   "theorems": [
    "Verif.Props.C101_file_read_back_partial",
    "Verif.Props.C101_substitution",
    "Verif.Props.C101_short_list",
    "Verif.Props.C101_predicates_first"
   ],
   "note": "Missing: the conditions FileFit (texts of expressions are faithful as in C93 and C100, also after the names of tuples have been replaced; lists of at least two constants; the style closed only with the scope direct as in C99; at least one readable variable as in C95), without which the statement is false (the other theorems are counterexamples)."
  },
  {
   "property": "C102",
   "status": "partial",
   "theorems": [
    "Verif.Props.C102_action_xfmlae",
    "Verif.Props.C102_represented_xns_of_pc",
    "Verif.Props.C102_action_pfmla",
    "Verif.Props.C102_action_pfmla_light_partial",
    "Verif.Props.C102_stabilization_relation",
    "Verif.Props.C102_read_only_links",
    "Verif.Props.C102_lightweight_loses",
    "Verif.Props.C102_exchange_differs",
    "Verif.Props.C102_order_matters"
   ],
   "note": "Missing: action_pfmla with lightweight, and actions whose represented actions assign different values; for both the statement is false (C102_lightweight_loses, C102_exchange_differs, C102_order_matters)."
  },
  {
   "property": "C103",
   "status": "partial",
   "theorems": [
    "Verif.Props.C103_direct",
    "Verif.Props.C103_actions",
    "Verif.Props.C103_included",
    "Verif.Props.C103_same_relation_partial",
    "Verif.Props.C103_index_guard",
    "Verif.Props.C103_one_order"
   ],
   "note": "Missing: processes of one kind with different actions, and actions stated for one order of symmetric links only; for both the statement is false (C103_index_guard, C103_one_order)."
  },
  {
   "property": "C104",
   "status": "proved",
   "theorems": [
    "Verif.Props.C104_variables",
    "Verif.Props.C104_writes",
    "Verif.Props.C104_processes",
    "Verif.Props.C104_order"
   ],
   "note": ""
  },
  {
   "property": "C105",
   "status": "partial",
   "theorems": [
    "Verif.Props.C105_states",
    "Verif.Props.C105_actions",
    "Verif.Props.C105_order",
    "Verif.Props.C105_refusal_partial",
    "Verif.Props.C105_refused_solution"
   ],
   "note": "Missing: that the search gives up only if there is no solution when the assumption excludes states; false of the code (C105_refused_solution)."
  },
  {
   "property": "C106",
   "status": "proved",
   "theorems": [
    "Verif.Props.C106_order",
    "Verif.Props.C106_conflicts",
    "Verif.Props.C106_minimal"
   ],
   "note": ""
  },
  {
   "property": "C107",
   "status": "proved",
   "theorems": [
    "Verif.Props.C107_test_sound",
    "Verif.Props.C107_test_answer",
    "Verif.Props.C107_test_ends",
    "Verif.Props.C107_subset_order"
   ],
   "note": "A guess given with -x-try-subset that merely contains a solution may be rejected, depending on the order of its actions (C107_subset_order)."
  },
  {
   "property": "C108",
   "status": "partial",
   "theorems": [
    "Verif.Props.C108_verdict",
    "Verif.Props.C108_one_file",
    "Verif.Props.C108_conflicts_partial",
    "Verif.Props.C108_any_file",
    "Verif.Props.C108_synchronous"
   ],
   "note": "Missing: that learned conflicts are valid for synchronous steps; false of the code, which then learns the empty conflict (C108_synchronous)."
  },
  {
   "property": "C109",
   "status": "partial",
   "theorems": [
    "Verif.Props.C109_unroll",
    "Verif.Props.C109_reference",
    "Verif.Props.C109_moves_partial",
    "Verif.Props.C109_model_partial",
    "Verif.Props.C109_gap",
    "Verif.Props.C109_shadow",
    "Verif.Props.C109_random",
    "Verif.Props.C109_no_representative"
   ],
   "note": "Missing: kinds of processes without actions before ones with actions, pure shadow variables, random writes, kinds without a representative process; for each the statement is false of the code (C109_gap, C109_shadow, C109_random, C109_no_representative)."
  },
  {
   "property": "C11",
   "status": "proved",
   "theorems": [
    "Verif.Props.C11_direct_accept_selfstab"
   ],
   "note": "Non-random systems, general cycle check (not the ring sweep)."
  },
  {
   "property": "C110",
   "status": "proved",
   "theorems": [
    "Verif.Props.C110_sat",
    "Verif.Props.C110_sat_iff",
    "Verif.Props.C110_unrestricted"
   ],
   "note": "The last theorem is the counterexample outside of the stated scope: if every state is legitimate, candidate_actions sorts no actions."
  },
  {
   "property": "C111",
   "status": "partial",
   "theorems": [
    "Verif.Props.C111_same_partial",
    "Verif.Props.C111_deterministic",
    "Verif.Props.C111_choice",
    "Verif.Props.C111_unread",
    "Verif.Props.C111_keep",
    "Verif.Props.C111_random"
   ],
   "note": "Missing: variables that are written but not read, shadow variables that keep their value, random writes; for each the statement is false of the code (C111_unread, C111_keep, C111_random). Without determinism an assertion may fail (C111_choice)."
  },
  {
   "property": "C112",
   "status": "proved",
   "theorems": [
    "Verif.Props.C112_fixpoint",
    "Verif.Props.C112_fixpoint_rings",
    "Verif.Props.C112_sat"
   ],
   "note": ""
  },
  {
   "property": "C113",
   "status": "proved",
   "theorems": [
    "Verif.Props.C113_search"
   ],
   "note": ""
  },
  {
   "property": "C114",
   "status": "partial",
   "theorems": [
    "Verif.Props.C114_match",
    "Verif.Props.C114_match_rings",
    "Verif.Props.C114_pattern_partial",
    "Verif.Props.C114_known_rings",
    "Verif.Props.C114_next10_partial",
    "Verif.Props.C114_known_undefined",
    "Verif.Props.C114_propagation",
    "Verif.Props.C114_subsets"
   ],
   "note": "Missing: the known patterns for numbers of values that are too small for them and subck_next10 for numbers of values other than 3, where the code is undefined or reads a part of the strings (C114_known_undefined)."
  },
  {
   "property": "C115",
   "status": "proved",
   "theorems": [
    "Verif.Props.C115_all_xn",
    "Verif.Props.C115_all_pf",
    "Verif.Props.C115_all_img",
    "Verif.Props.C115_one",
    "Verif.Props.C115_graphviz"
   ],
   "note": ""
  },
  {
   "property": "C116",
   "status": "partial",
   "theorems": [
    "Verif.Props.C116_channels",
    "Verif.Props.C116_tables",
    "Verif.Props.C116_reads",
    "Verif.Props.C116_sends_owned",
    "Verif.Props.C116_copy_partial",
    "Verif.Props.C116_stale_copy",
    "Verif.Props.C116_lost_write"
   ],
   "note": "The part about copying is proved for processes that access no variable twice; C116_stale_copy shows that it is false otherwise."
  },
  {
   "property": "C117",
   "status": "partial",
   "theorems": [
    "Verif.Props.C117_action",
    "Verif.Props.C117_can_act",
    "Verif.Props.C117_assume",
    "Verif.Props.C117_fix",
    "Verif.Props.C117_part_partial",
    "Verif.Props.C117_wrong_part"
   ],
   "note": "The part about symmetries needs that each symmetry with processes in the written topology has some in the topology of the synthesis; C117_wrong_part shows that it is false otherwise."
  },
  {
   "property": "C118",
   "status": "proved",
   "theorems": [
    "Verif.Props.C118_invariant",
    "Verif.Props.C118_once",
    "Verif.Props.C118_rings",
    "Verif.Props.C118_puppet",
    "Verif.Props.C118_file_rings",
    "Verif.Props.C118_pair_graph",
    "Verif.Props.C118_graph"
   ],
   "note": ""
  },
  {
   "property": "C119",
   "status": "partial",
   "theorems": [
    "Verif.Props.C119_fixup",
    "Verif.Props.C119_runs",
    "Verif.Props.C119_twice",
    "Verif.Props.C119_action_partial",
    "Verif.Props.C119_shadow_random"
   ],
   "note": "The part about actions needs that a puppet variable is written randomly; C119_shadow_random shows that it is false otherwise."
  },
  {
   "property": "C12",
   "status": "proved",
   "theorems": [
    "Verif.Props.C12_direct_accept_iff"
   ],
   "note": "Exact characterisation of acceptance, both directions."
  },
  {
   "property": "C120",
   "status": "proved",
   "theorems": [
    "Verif.Props.C120_ring",
    "Verif.Props.C120_three_coloring",
    "Verif.Props.C120_two_coloring",
    "Verif.Props.C120_matching",
    "Verif.Props.C120_sum_not",
    "Verif.Props.C120_agreement",
    "Verif.Props.C120_single_token"
   ],
   "note": ""
  },
  {
   "property": "C121",
   "status": "partial",
   "theorems": [
    "Verif.Props.C121_range",
    "Verif.Props.C121_instances_partial",
    "Verif.Props.C121_text"
   ],
   "note": "The text of the first value of a parameter is that of all its values; C121_text shows that this part is false."
  },
  {
   "property": "C122",
   "status": "partial",
   "theorems": [
    "Verif.Props.C122_line",
    "Verif.Props.C122_sets",
    "Verif.Props.C122_end",
    "Verif.Props.C122_answers_partial",
    "Verif.Props.C122_no_echo"
   ],
   "note": "The part about answers needs -echo or -echo-subsets; C122_no_echo shows that it is false otherwise."
  },
  {
   "property": "C13",
   "status": "proved",
   "theorems": [
    "Verif.Props.C13_accept_selfstab"
   ],
   "note": ""
  },
  {
   "property": "C14",
   "status": "partial",
   "theorems": [
    "Verif.Props.C14_eventually_simulates",
    "Verif.Props.C14_simulates_in_invariant_partial",
    "Verif.Props.C14_shadow_style_counterexample"
   ],
   "note": "Every maximal execution eventually simulates (all styles). Simulation from the moment the returned invariant is entered holds for the styles closed and silent; it is false of the code for the shadow style (counterexample)."
  },
  {
   "property": "C15",
   "status": "proved",
   "theorems": [
    "Verif.Props.C15_find_one_cycle"
   ],
   "note": ""
  },
  {
   "property": "C16",
   "status": "proved",
   "theorems": [
    "Verif.Props.C16_sync",
    "Verif.Props.C16_rejects",
    "Verif.Props.C16_every_choice",
    "Verif.Props.C16_progress"
   ],
   "note": "For systems without random-write variables in which no variable has two writers; with two writers of a variable the code stops with an error (C16_rejects)."
  },
  {
   "property": "C17",
   "status": "proved",
   "theorems": [
    "Verif.Props.C17_found_verified",
    "Verif.Props.C17_order_verified",
    "Verif.Props.C17_found_selfstab",
    "Verif.Props.C17_no_verification_aborts",
    "Verif.Props.C17_order_empty_conflict",
    "Verif.Props.C17_order_empty_conflict_sample"
   ],
   "note": "For AddStabilization and try_order_synthesis, with every heuristic, the conflict database, revise_actions_alone and the stabilization check as arbitrary functions. With verify_found off only systems that are only verified are checked, and without such a system there is never a success (C17_no_verification_aborts)."
  },
  {
   "property": "C18",
   "status": "proved",
   "theorems": [
    "Verif.Props.C18_conflict_ck",
    "Verif.Props.C18_add"
   ],
   "note": ""
  },
  {
   "property": "C19",
   "status": "proved",
   "theorems": [
    "Verif.Props.C19_minimal",
    "Verif.Props.C19_add"
   ],
   "note": ""
  },
  {
   "property": "C20",
   "status": "proved",
   "theorems": [
    "Verif.Props.C20_decode_encode",
    "Verif.Props.C20_first_flush",
    "Verif.Props.C20_later_flush",
    "Verif.Props.C20_exchange",
    "Verif.Props.C20_truncated_message"
   ],
   "note": "A truncated message, which the encoder never makes, reads out of bounds (C20_truncated_message)."
  },
  {
   "property": "C21",
   "status": "proved",
   "theorems": [
    "Verif.Props.C21_conflict_membs",
    "Verif.Props.C21_conflict_membs_history",
    "Verif.Props.C21_superset_membs"
   ],
   "note": ""
  },
  {
   "property": "C22",
   "status": "proved",
   "theorems": [
    "Verif.Props.C22_trim",
    "Verif.Props.C22_trimmed_history",
    "Verif.Props.C22_sat_ck",
    "Verif.Props.C22_loaded_file_limit"
   ],
   "note": "For histories of additions and trims from the empty database. A database loaded from a file listing the empty conflict beside others is not recognised as unsatisfiable (C22_loaded_file_limit)."
  },
  {
   "property": "C23",
   "status": "proved",
   "theorems": [
    "Verif.Props.C23_action_ids",
    "Verif.Props.C23_step_ids",
    "Verif.Props.C23_out_of_range",
    "Verif.Props.C23_large_domain_limit"
   ],
   "note": "Values are bytes, so d <= 256 is needed (C23_large_domain_limit)."
  },
  {
   "property": "C24",
   "status": "proved",
   "theorems": [
    "Verif.Props.C24_action_ids",
    "Verif.Props.C24_pre_img_index"
   ],
   "note": ""
  },
  {
   "property": "C25",
   "status": "proved",
   "theorems": [
    "Verif.Props.C25_representative",
    "Verif.Props.C25_canonical",
    "Verif.Props.C25_parser_order",
    "Verif.Props.C25_represented_actions"
   ],
   "note": "Under the access layout the parser produces; additionally the representative is the same for a whole symmetry class."
  },
  {
   "property": "C26",
   "status": "partial",
   "theorems": [
    "Verif.Props.C26_round_trip_partial",
    "Verif.Props.C26_inferred_size",
    "Verif.Props.C26_injective",
    "Verif.Props.C26_reader",
    "Verif.Props.C26_padding_limit"
   ],
   "note": "Round trip for every d in 1..255, every function and both bit orders, provided BitTable (library not in the checkout) ignores bits written beyond its end, or d*d*elgsz is divisible by six; with a bounds-checked table the reader fails (C26_padding_limit). The reader always stops and returns 0 or a well-formed function."
  },
  {
   "property": "C27",
   "status": "proved",
   "theorems": [
    "Verif.Props.C27_actions_round_trip",
    "Verif.Props.C27_ppgfun_round_trip",
    "Verif.Props.C27_actset_round_trip",
    "Verif.Props.C27_inferred_domain",
    "Verif.Props.C27_inferred_from_actions",
    "Verif.Props.C27_nondeterministic_limit",
    "Verif.Props.C27_inferred_from_actions_limit"
   ],
   "note": "With the domain size given or inferable; limits beside the claim are shown by witnesses."
  },
  {
   "property": "C28",
   "status": "proved",
   "theorems": [
    "Verif.Props.C28_adjacency_list",
    "Verif.Props.C28_do_twice",
    "Verif.Props.C28_overflow_limit"
   ],
   "note": ""
  },
  {
   "property": "C29",
   "status": "proved",
   "theorems": [
    "Verif.Props.C29_terminates",
    "Verif.Props.C29_periodic_block",
    "Verif.Props.C29_livelock"
   ],
   "note": ""
  },
  {
   "property": "C30",
   "status": "proved",
   "theorems": [
    "Verif.Props.C30_no_livelock",
    "Verif.Props.C30_needs_self_disabling"
   ],
   "note": "For self-disabling protocols; the hypothesis is needed (C30_needs_self_disabling)."
  },
  {
   "property": "C31",
   "status": "proved",
   "theorems": [
    "Verif.Props.C31_terminates",
    "Verif.Props.C31_no_livelock"
   ],
   "note": ""
  },
  {
   "property": "C32",
   "status": "proved",
   "theorems": [
    "Verif.Props.C32_silent"
   ],
   "note": ""
  },
  {
   "property": "C33",
   "status": "partial",
   "theorems": [
    "Verif.Props.C33_deadlock_free_partial",
    "Verif.Props.C33_converges_partial",
    "Verif.Props.C33_counterexample"
   ],
   "note": "False as stated: the generator can leave a deadlock outside the legitimate states (C33_counterexample). Proved: exactly when the generator's choices meet a stated condition on its output tree, and convergence under it."
  },
  {
   "property": "C34",
   "status": "partial",
   "theorems": [
    "Verif.Props.C34_canonical_ck_partial",
    "Verif.Props.C34_class_kept",
    "Verif.Props.C34_small_domains",
    "Verif.Props.C34_counterexample",
    "Verif.Props.C34_two_representatives"
   ],
   "note": "Proved: rejection is always justified, every class keeps a member, and exactness for domains of at most two values. False from three values on: only four of six permutations are tried (C34_counterexample, C34_two_representatives)."
  },
  {
   "property": "C35",
   "status": "proved",
   "theorems": [
    "Verif.Props.C35_permutations",
    "Verif.Props.C35_canonical_set",
    "Verif.Props.C35_subgraph"
   ],
   "note": "BitTable::operator> is a library function, taken to be any strict total order on tables of the same size."
  },
  {
   "property": "C36",
   "status": "proved",
   "theorems": [
    "Verif.Props.C36_config_index"
   ],
   "note": ""
  },
  {
   "property": "C37",
   "status": "proved",
   "theorems": [
    "Verif.Props.C37_terminates",
    "Verif.Props.C37_sound"
   ],
   "note": ""
  },
  {
   "property": "C38",
   "status": "partial",
   "theorems": [
    "Verif.Props.C38_ring_trace_partial",
    "Verif.Props.C38_complete_partial",
    "Verif.Props.C38_trace_chain_partial",
    "Verif.Props.C38_counterexample"
   ],
   "note": "False as stated: a silent ring whose processes are all illegitimate is not reported (C38_counterexample). Proved: ring traces are printed exactly when a deadlock exists, and every deadlock is reported if no silent ring is illegitimate at every process."
  },
  {
   "property": "C39",
   "status": "proved",
   "theorems": [
    "Verif.Props.C39_binop",
    "Verif.Props.C39_cmp",
    "Verif.Props.C39_negate",
    "Verif.Props.C39_leaves",
    "Verif.Props.C39_sets",
    "Verif.Props.C39_img_eq"
   ],
   "note": "Integers are unbounded. C39_binop also says that an operation is rejected exactly if it is undefined for some state."
  },
  {
   "property": "C40",
   "status": "partial",
   "theorems": [
    "Verif.Props.C40_quantifiers_partial",
    "Verif.Props.C40_range",
    "Verif.Props.C40_empty_rejected"
   ],
   "note": "Exact for every range that can be evaluated. Not proved because false: a range i < 0 is rejected rather than empty (C40_empty_rejected)."
  },
  {
   "property": "C41",
   "status": "proved",
   "theorems": [
    "Verif.Props.C41_programs",
    "Verif.Props.C41_setRun_unique",
    "Verif.Props.C41_checks_one",
    "Verif.Props.C41_checks_two",
    "Verif.Props.C41_ensure_ctx"
   ],
   "note": "mdd_and, mdd_or etc. of the library are assumed to be the operations on sets; domain sizes are positive."
  },
  {
   "property": "C42",
   "status": "partial",
   "theorems": [
    "Verif.Props.C42_pre_img_partial",
    "Verif.Props.C42_true_of_empty",
    "Verif.Props.C42_relations",
    "Verif.Props.C42_as_img",
    "Verif.Props.C42_pre_list",
    "Verif.Props.C42_smooth",
    "Verif.Props.C42_subst1",
    "Verif.Props.C42_img_list_partial",
    "Verif.Props.C42_img_list_true"
   ],
   "note": "Exact in all cases but two, in which the code is wrong: the relation true with an empty diagram as set gives true (C42_true_of_empty), and the image of the set true under a formula over some variables forgets that the others keep their values (C42_img_list_true)."
  },
  {
   "property": "C43",
   "status": "proved",
   "theorems": [
    "Verif.Props.C43_rank"
   ],
   "note": ""
  },
  {
   "property": "C44",
   "status": "partial",
   "theorems": [
    "Verif.Props.C44_exact",
    "Verif.Props.C44_deterministic",
    "Verif.Props.C44_disabling_partial",
    "Verif.Props.C44_rejected",
    "Verif.Props.C44_symmetric_partial",
    "Verif.Props.C44_symmetric_no_writeonly",
    "Verif.Props.C44_pure_actions_no_effect",
    "Verif.Props.C44_asymmetric",
    "Verif.Props.C44_self_loop_accepted",
    "Verif.Props.C44_other_process"
   ],
   "note": "The decision is characterised exactly. Symmetry is false in general (C44_asymmetric) and proved with force_disabling, without write-only variables, or unless both actions enable each other. Self-disabling is proved between the two actions except for actions that change only write-only variables (C44_self_loop_accepted)."
  },
  {
   "property": "C45",
   "status": "proved",
   "theorems": [
    "Verif.Props.C45_next_options"
   ],
   "note": "The options are the successors (predecessors) inside the current mask."
  },
  {
   "property": "C46",
   "status": "partial",
   "theorems": [
    "Verif.Props.C46_act_permission_partial",
    "Verif.Props.C46_only_acting_changes",
    "Verif.Props.C46_enabled_not_flag",
    "Verif.Props.C46_unread_skipped"
   ],
   "note": "Proved for the channels from which the process reads. Channels from which nothing is read are not asked (C46_unread_skipped). Values outside their domains are corrected and values of neighbours copied without permission (C46_only_acting_changes)."
  },
  {
   "property": "C47",
   "status": "partial",
   "theorems": [
    "Verif.Props.C47_exclusion_partial",
    "Verif.Props.C47_current_view_partial",
    "Verif.Props.C47_both_granted",
    "Verif.Props.C47_acts_on_stale_value"
   ],
   "note": "False in general: C47_both_granted and C47_acts_on_stale_value are executions of the shipped matching ring. Proved from clean starts without reuse of sequence numbers if no waiting process accepts a packet with the flag ~0 from a sequence number it does not know."
  },
  {
   "property": "C48",
   "status": "partial",
   "theorems": [
    "Verif.Props.C48_livelock",
    "Verif.Props.C48_period_exact",
    "Verif.Props.C48_silent_partial",
    "Verif.Props.C48_silent_exact",
    "Verif.Props.C48_terminates",
    "Verif.Props.C48_needs_self_disabling",
    "Verif.Props.C48_tile_livelock",
    "Verif.Props.C48_tile_silent",
    "Verif.Props.C48_classifiers_agree"
   ],
   "note": "A reported livelock is proved for every protocol, silence for self-disabling protocols; for others silence can be wrong (C48_needs_self_disabling)."
  },
  {
   "property": "C49",
   "status": "proved",
   "theorems": [
    "Verif.Props.C49_uniring_cycle_ck",
    "Verif.Props.C49_uniring_cycle_ck_limit",
    "Verif.Props.C49_uniring_cycle_ck_sound",
    "Verif.Props.C49_nondeterministic_aborts"
   ],
   "note": "Nondeterministic protocols, outside the claim, can trip the Claim at src/xfmlae.cc:289 (C49_nondeterministic_aborts)."
  },
  {
   "property": "C50",
   "status": "partial",
   "theorems": [
    "Verif.Props.C50_pruning_sound_partial",
    "Verif.Props.C50_layer_limit_counterexample",
    "Verif.Props.C50_active_shadow_counterexample"
   ],
   "note": "False of the code for two option combinations, proved for all others."
  },
  {
   "property": "C51",
   "status": "proved",
   "theorems": [
    "Verif.Props.C51_stabilization_ck_total"
   ],
   "note": ""
  },
  {
   "property": "C52",
   "status": "partial",
   "theorems": [
    "Verif.Props.C52_silent_partial",
    "Verif.Props.C52_direct_silent_counterexample"
   ],
   "note": "The style half is false of the code in the direct branch."
  },
  {
   "property": "C53",
   "status": "proved",
   "theorems": [
    "Verif.Props.C53_probabilistic_accept",
    "Verif.Props.C53_every_scheduler"
   ],
   "note": ""
  },
  {
   "property": "C54",
   "status": "proved",
   "theorems": [
    "Verif.Props.C54_shadow_behaviour_realised"
   ],
   "note": ""
  },
  {
   "property": "C55",
   "status": "proved",
   "theorems": [
    "Verif.Props.C55_uniring_stabilization"
   ],
   "note": ""
  },
  {
   "property": "C56",
   "status": "proved",
   "theorems": [
    "Verif.Props.C56_impossible_set"
   ],
   "note": ""
  },
  {
   "property": "C57",
   "status": "proved",
   "theorems": [
    "Verif.Props.C57_file_round_trip"
   ],
   "note": ""
  },
  {
   "property": "C58",
   "status": "proved",
   "theorems": [
    "Verif.Props.C58_conflict_sizes"
   ],
   "note": ""
  },
  {
   "property": "C59",
   "status": "proved",
   "theorems": [
    "Verif.Props.C59_yes_exact"
   ],
   "note": ""
  },
  {
   "property": "C60",
   "status": "proved",
   "theorems": [
    "Verif.Props.C60_livelock_actions",
    "Verif.Props.C60_synchronous_limit"
   ],
   "note": "For interleaving systems, where the relation is the union of the actions' transitions. In synchronous systems the explanation can be empty (C60_synchronous_limit)."
  },
  {
   "property": "C61",
   "status": "proved",
   "theorems": [
    "Verif.Props.C61_systems_agree",
    "Verif.Props.C61_pick_agree",
    "Verif.Props.C61_size_claim"
   ],
   "note": ""
  },
  {
   "property": "C62",
   "status": "partial",
   "theorems": [
    "Verif.Props.C62_revise_partial",
    "Verif.Props.C62_adds_complete",
    "Verif.Props.C62_claim_fails"
   ],
   "note": "When the revision completes its result is exact, and without removed candidates it completes. Not proved because false: it can stop at its assertion (C62_claim_fails)."
  },
  {
   "property": "C63",
   "status": "proved",
   "theorems": [
    "Verif.Props.C63_step",
    "Verif.Props.C63_randomize",
    "Verif.Props.C63_randomize_all"
   ],
   "note": ""
  },
  {
   "property": "C64",
   "status": "proved",
   "theorems": [
    "Verif.Props.C64_predicates",
    "Verif.Props.C64_integers",
    "Verif.Props.C64_unique",
    "Verif.Props.C64_shadowing",
    "Verif.Props.C64_hidden",
    "Verif.Props.C64_guarded_division_rejected"
   ],
   "note": "A name bound twice, or bound and defined by a let, gives wrong values (C64_shadowing, C64_hidden)."
  },
  {
   "property": "C65",
   "status": "proved",
   "theorems": [
    "Verif.Props.C65_one_operand",
    "Verif.Props.C65_two_operands",
    "Verif.Props.C65_contexts",
    "Verif.Props.C65_handles_valid",
    "Verif.Props.C65_no_leak",
    "Verif.Props.C65_programs"
   ],
   "note": "Reference counts inside the decision diagram library are not modelled."
  },
  {
   "property": "C66",
   "status": "proved",
   "theorems": [
    "Verif.Props.C66_state_of",
    "Verif.Props.C66_state_of_const",
    "Verif.Props.C66_pick_pre",
    "Verif.Props.C66_pick_pre_pred",
    "Verif.Props.C66_pick_pre_unsat",
    "Verif.Props.C66_eq",
    "Verif.Props.C66_img_eq"
   ],
   "note": "For an unsatisfiable diagram that is not the constant false, pick_pre gives a state (C66_pick_pre_unsat)."
  },
  {
   "property": "C67",
   "status": "proved",
   "theorems": [
    "Verif.Props.C67_cycle_from_exact"
   ],
   "note": ""
  },
  {
   "property": "C68",
   "status": "proved",
   "theorems": [
    "Verif.Props.C68_trim_exact",
    "Verif.Props.C68_exclude_symm",
    "Verif.Props.C68_compatible"
   ],
   "note": ""
  },
  {
   "property": "C69",
   "status": "proved",
   "theorems": [
    "Verif.Props.C69_closed_walk_iff_band",
    "Verif.Props.C69_tile_kept",
    "Verif.Props.C69_overapprox_keeps",
    "Verif.Props.C69_overapprox_larger",
    "Verif.Props.C69_table"
   ],
   "note": ""
  },
  {
   "property": "C70",
   "status": "partial",
   "theorems": [
    "Verif.Props.C70_guided_exact",
    "Verif.Props.C70_livelock_set_incomplete",
    "Verif.Props.C70_prunes_too_much"
   ],
   "note": "The decision and that the set consists of actions of the tiling are proved. That the set contains a livelock is false (C70_livelock_set_incomplete): the last row is not recorded, so the search discards valid candidates (C70_prunes_too_much)."
  },
  {
   "property": "C71",
   "status": "proved",
   "theorems": [
    "Verif.Props.C71_search_exact",
    "Verif.Props.C71_small_domains"
   ],
   "note": "For the table branch without given actions, with max_ppgs at most max_period (as set by -cutoff) and no limit of depth, from domain size 3; domains of one or two values fail an assertion (C71_small_domains)."
  },
  {
   "property": "C72",
   "status": "proved",
   "theorems": [
    "Verif.Props.C72_no_class_missed",
    "Verif.Props.C72_tiling_found"
   ],
   "note": "Same options as C71."
  },
  {
   "property": "C73",
   "status": "proved",
   "theorems": [
    "Verif.Props.C73_livelock_iff_torus",
    "Verif.Props.C73_yes_complete"
   ],
   "note": ""
  },
  {
   "property": "C74",
   "status": "proved",
   "theorems": [
    "Verif.Props.C74_check_exact",
    "Verif.Props.C74_constraints_iff",
    "Verif.Props.C74_periodic_iff",
    "Verif.Props.C74_reduction_exact",
    "Verif.Props.C74_commutative_exact",
    "Verif.Props.C74_color_clash"
   ],
   "note": "For at most 255 values (256 for the first two), as the values are bytes, and no tile with both south and east colour UINT_MAX (needed: C74_color_clash)."
  },
  {
   "property": "C75",
   "status": "proved",
   "theorems": [
    "Verif.Props.C75_no_torus",
    "Verif.Props.C75_all_squares",
    "Verif.Props.C75_known_table",
    "Verif.Props.C75_known_aperiodic",
    "Verif.Props.C75_main_aperiodic"
   ],
   "note": "Of TestKnownAperiodic, the call of livelock_semick is covered for every limit; the call of periodic_leads_semick is not."
  },
  {
   "property": "C76",
   "status": "partial",
   "theorems": [
    "Verif.Props.C76_uniring_weak_partial",
    "Verif.Props.C76_uniring_weak_no_cycle_partial",
    "Verif.Props.C76_uniring_weak_false_partial",
    "Verif.Props.C76_uniring_weak_true_partial",
    "Verif.Props.C76_printed_layers_partial",
    "Verif.Props.C76_true_but_not_convergent",
    "Verif.Props.C76_false_but_convergent",
    "Verif.Props.C76_runs_forever",
    "Verif.Props.C76_layers_differ"
   ],
   "note": "The claim is false of the code, as the witnesses show; proved is what the check decides on self-disabling rings (freedom of deadlocks), that it is right if no cycle lies outside the invariant, and what each answer implies."
  },
  {
   "property": "C77",
   "status": "proved",
   "theorems": [
    "Verif.Props.C77_undirected_reachability",
    "Verif.Props.C77_transitive_closure",
    "Verif.Props.C77_transitive_closure_processes"
   ],
   "note": ""
  },
  {
   "property": "C78",
   "status": "proved",
   "theorems": [
    "Verif.Props.C78_scc_find",
    "Verif.Props.C78_scc_find_cycle",
    "Verif.Props.C78_self_loop"
   ],
   "note": "A self-loop alone is not reported (C78_self_loop)."
  },
  {
   "property": "C79",
   "status": "proved",
   "theorems": [
    "Verif.Props.C79_synthesis_complete",
    "Verif.Props.C79_three_systems_incomplete",
    "Verif.Props.C79_default_height_incomplete",
    "Verif.Props.C79_clash_found"
   ],
   "note": "The scope (at most two systems, max_height 0) is necessary: the last three theorems are counterexamples outside of it."
  },
  {
   "property": "C80",
   "status": "proved",
   "theorems": [
    "Verif.Props.C80_conflicts_valid"
   ],
   "note": "Also when done_ck interrupts the search, and with any limits."
  },
  {
   "property": "C81",
   "status": "proved",
   "theorems": [
    "Verif.Props.C81_pick_most_constrained",
    "Verif.Props.C81_random_values",
    "Verif.Props.C81_picks_cand",
    "Verif.Props.C81_setting"
   ],
   "note": ""
  },
  {
   "property": "C82",
   "status": "proved",
   "theorems": [
    "Verif.Props.C82_pick_candidates"
   ],
   "note": ""
  },
  {
   "property": "C83",
   "status": "proved",
   "theorems": [
    "Verif.Props.C83_candidates_exact",
    "Verif.Props.C83_candidates_sound",
    "Verif.Props.C83_trivial"
   ],
   "note": ""
  },
  {
   "property": "C84",
   "status": "proved",
   "theorems": [
    "Verif.Props.C84_synthesis_complete",
    "Verif.Props.C84_nothing_to_do",
    "Verif.Props.C84_all_legitimate",
    "Verif.Props.C84_forbidden_found"
   ],
   "note": "The last three theorems are counterexamples outside of the stated scope."
  },
  {
   "property": "C85",
   "status": "proved",
   "theorems": [
    "Verif.Props.C85_driver_sound",
    "Verif.Props.C85_trim_forgets_declared"
   ],
   "note": "The second theorem shows that the hypothesis on max_conflict_sz is needed."
  },
  {
   "property": "C86",
   "status": "proved",
   "theorems": [
    "Verif.Props.C86_driver_exhaustive"
   ],
   "note": ""
  },
  {
   "property": "C87",
   "status": "proved",
   "theorems": [
    "Verif.Props.C87_driver_ends",
    "Verif.Props.C87_max_depth_endless"
   ],
   "note": "The second theorem is the counterexample outside of the stated scope."
  },
  {
   "property": "C88",
   "status": "proved",
   "theorems": [
    "Verif.Props.C88_driver_complete"
   ],
   "note": ""
  },
  {
   "property": "C89",
   "status": "proved",
   "theorems": [
    "Verif.Props.C89_mpi_sound"
   ],
   "note": ""
  },
  {
   "property": "C90",
   "status": "proved",
   "theorems": [
    "Verif.Props.C90_mpi_ends"
   ],
   "note": ""
  },
  {
   "property": "C91",
   "status": "proved",
   "theorems": [
    "Verif.Props.C91_elect",
    "Verif.Props.C91_zero_layers"
   ],
   "note": "The second theorem is the counterexample outside of the stated scope."
  },
  {
   "property": "C92",
   "status": "proved",
   "theorems": [
    "Verif.Props.C92_mpi_complete",
    "Verif.Props.C92_try_all_endless"
   ],
   "note": "The second theorem is the counterexample outside of the stated scope."
  },
  {
   "property": "C93",
   "status": "partial",
   "theorems": [
    "Verif.Props.C93_read_back_partial",
    "Verif.Props.C93_stable",
    "Verif.Props.C93_equal_lost",
    "Verif.Props.C93_let_lost"
   ],
   "note": "False without tidy (witness C93_equal_lost); tidy also excludes the words if, forall, exists, unique as names."
  },
  {
   "property": "C94",
   "status": "proved",
   "theorems": [
    "Verif.Props.C94_reading_ends"
   ],
   "note": ""
  },
  {
   "property": "C95",
   "status": "proved",
   "theorems": [
    "Verif.Props.C95_action_read_back",
    "Verif.Props.C95_section_read_back",
    "Verif.Props.C95_unguarded"
   ],
   "note": "The last theorem is the counterexample outside of the stated scope."
  },
  {
   "property": "C96",
   "status": "proved",
   "theorems": [
    "Verif.Props.C96_same_transitions",
    "Verif.Props.C96_alias",
    "Verif.Props.C96_constant",
    "Verif.Props.C96_self_loop"
   ],
   "note": "C96_alias and C96_constant are the counterexamples outside of the stated scope."
  },
  {
   "property": "C97",
   "status": "proved",
   "theorems": [
    "Verif.Props.C97_actions_cover",
    "Verif.Props.C97_actions_exact",
    "Verif.Props.C97_symm_actions",
    "Verif.Props.C97_symm_actions_all",
    "Verif.Props.C97_alias"
   ],
   "note": "The last theorem is the counterexample outside of the stated scope."
  },
  {
   "property": "C98",
   "status": "proved",
   "theorems": [
    "Verif.Props.C98_actions_back",
    "Verif.Props.C98_file_round_trip",
    "Verif.Props.C98_write_only_lost"
   ],
   "note": "The last theorem is the counterexample outside of the stated scope."
  },
  {
   "property": "C99",
   "status": "partial",
   "theorems": [
    "Verif.Props.C99_style_back_partial",
    "Verif.Props.C99_closed_lost",
    "Verif.Props.C99_option",
    "Verif.Props.C99_behaviour",
    "Verif.Props.C99_agreement"
   ],
   "note": "Missing: the style closed with the scopes shadow and future, for which the statement is false (C99_closed_lost)."
  }
 ]
}
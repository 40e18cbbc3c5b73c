{"claims": [
 {"property": "C01", "status": "proved", "theorems": ["GC.C01_views_agree", "GC.C01_from_dict", "GC.C01_init_validates", "GC.C01_partition_views"], "note": ""},
 {"property": "C02", "status": "proved", "theorems": ["GC.C02_flip_exact", "GC.C02_flip_history", "GC.C02_partition_flip"], "note": ""},
 {"property": "C03", "status": "proved", "theorems": ["GC.C03_flip_raises_iff", "GC.C03_partition_flip"], "note": ""},
 {"property": "C04", "status": "proved", "theorems": ["GC.C04_cut_edges_exact", "GC.C04_chain_is_history"], "note": ""},
 {"property": "C05", "status": "proved", "theorems": ["GC.C05_cut_edges_by_part_exact"], "note": ""},
 {"property": "C06", "status": "proved", "theorems": ["GC.C06_tally_exact", "GC.C06_data_tally_exact"], "note": ""},
 {"property": "C07", "status": "partial", "theorems": ["GC.C07_tally_ignores_nan_partial", "GC.C07_nan_violation"], "note": "false of the code in general (witness): moving a NaN node poisons the tally; proved for histories in which no flipped node has a NaN entry"},
 {"property": "C08", "status": "partial", "theorems": ["GC.C08_assignment_unchanged", "GC.C08_values_unchanged_partial", "GC.C08_defaultdict_violation"], "note": "assignments never change; cached values never change except that lookups on a child may insert default entries (0 or empty set) into defaultdict values of the parent (witness)"},
 {"property": "C09", "status": "proved", "theorems": ["GC.C09_boundaries_exact"], "note": ""},
 {"property": "C10", "status": "proved", "theorems": ["GC.C10_exterior_set_exact"], "note": ""},
 {"property": "C100", "status": "partial", "theorems": ["GC.C100_possible_results", "GC.C100_positive_probability", "GC.C100_every_plan_violation"], "note": "The possible results are characterised for default arguments (random_spanning_tree without surcharge, memoization, tolerance below one). The claim that every balanced contiguous plan is possible for some order of the labels is refuted."},
 {"property": "C101", "status": "proved", "theorems": ["GC.C101_short_bursts", "GC.C101_single_run", "GC.C101_variable_length", "GC.C101_failed_start", "GC.C101_short_bursts_converse", "GC.C101_single_run_converse", "GC.C101_variable_length_converse", "GC.C101_best_after_loop", "GC.C101_no_stop"], "note": "Both models use the same bound on the proposals per state; the loop has its own bound on the calls of next. For variable_length_short_bursts the bound on proposals is positive."},
 {"property": "C102", "status": "proved", "theorems": ["GC.C102_law", "GC.C102_uniform", "GC.C102_default", "GC.C102_share_two_sided", "GC.C102_share_one_sided", "GC.C102_share_one_only", "GC.C102_two_districts", "GC.C102_label_ratio", "GC.C102_labels_not_exchangeable", "GC.C102_row_example"], "note": "The law of recursive_tree_part for every spanning tree law with its instances for uniform and Kruskal trees; who gets which side; agreement with recom for two districts; labels are not exchangeable."},
 {"property": "C103", "status": "proved", "theorems": ["GC.C103_run", "GC.C103_limit", "GC.C103_ensemble", "GC.C103_never_leaves", "GC.C103_stays", "GC.C103_two_districts", "GC.C103_rate", "GC.C103_stuck"], "note": "ideal uniform spanning tree (exact for the tapes FairTape, which exist); constraints that let every plan pass; convergence to the tree-weighted distribution on the plans reachable by changing two districts at a time; C103_stuck shows these need not be all plans"},
 {"property": "C104", "status": "proved", "theorems": ["GC.C104_slow_run", "GC.C104_slow_kernel", "GC.C104_slow_complete", "GC.C104_slow_ensemble", "GC.C104_slow_converges", "GC.C104_slow_parity", "GC.C104_bi_run", "GC.C104_bi_kernel", "GC.C104_bi_complete", "GC.C104_bi_ensemble", "GC.C104_bi_converges", "GC.C104_bi_parity", "GC.C104_applies"], "note": "law of whole runs of slow_reversible_propose and slow_reversible_propose_bi with constraints; the draws are uniform over a number N that the numbers of moves divide"},
 {"property": "C105", "status": "proved", "theorems": ["GC.C105_run", "GC.C105_complete", "GC.C105_never_leaves", "GC.C105_stationary", "GC.C105_ensemble", "GC.C105_converges", "GC.C105_limit", "GC.C105_uniform", "GC.C105_default", "GC.C105_two_districts", "GC.C105_small", "GC.C105_small_all", "GC.C105_kite", "GC.C105_stuck"], "note": "Whole runs of recom with any constraints on the districts and any positive tree law; the bounds on attempts and proposals are explicit; C105_stuck is an example where not every plan is within reach."},
 {"property": "C106", "status": "proved", "theorems": ["GC.C106_flips", "GC.C106_recom", "GC.C106_reversible", "GC.C106_flip_mean", "GC.C106_recom_mean", "GC.C106_reversible_mean", "GC.C106_reversible_ensemble", "GC.C106_recom_converges"], "note": "Refinement of chains of partition objects by chains of plans, with the constructor, exceptions and randomness; transfers the laws of whole runs to objects."},
 {"property": "C107", "status": "proved", "theorems": ["GC.C107_flips", "GC.C107_flip_mean", "GC.C107_slow_ensemble", "GC.C107_slow_converges", "GC.C107_bi_ensemble", "GC.C107_bi_converges", "GC.C107_applies"], "note": "the moves for every order of constraints with contiguity before tallies; limits with [single_flip_contiguous, bounds on the population]; random.choice inside the constraint is an arbitrary function, not drawn from the tape"},
 {"property": "C108", "status": "proved", "theorems": ["GC.C108_names", "GC.C108_own_names", "GC.C108_change", "GC.C108_other_tally", "GC.C108_unregistered_alias", "GC.C108_alias", "GC.C108_list_alias"], "note": "Exact condition on names and aliases, and what comes out when it fails."},
 {"property": "C109", "status": "proved", "theorems": ["GC.C109_slow_law", "GC.C109_slow_find_iff", "GC.C109_slow_long", "GC.C109_slow_trap", "GC.C109_bi_law", "GC.C109_bi_find_iff", "GC.C109_bi_long", "GC.C109_bi_trap"], "note": "short_bursts with always_accept is the Markov chain of the best plans; it finds an optimum almost surely iff bursts can find one from every best plan they can get to"},
 {"property": "C11", "status": "proved", "theorems": ["GC.C11_election_exact", "GC.C11_percents_sum_to_one", "GC.C11_election_total"], "note": ""},
 {"property": "C110", "status": "proved", "theorems": ["GC.C110_law", "GC.C110_find_iff", "GC.C110_long", "GC.C110_trap", "GC.C110_two_districts"], "note": "the law of the bursts, when they find the optimum, long bursts suffice, geometric rate with two districts, and a trap no number of bursts escapes"},
 {"property": "C111", "status": "partial", "theorems": ["GC.C111_warnings", "GC.C111_connected", "GC.C111_na_partial", "GC.C111_na_violation", "GC.C111_join", "GC.C111_add_data"], "note": "exact for overlaps, islands, the coordinate reference system and the columns asked for; violated for missing values in columns not asked for, which add_data adds all the same"},
 {"property": "C112", "status": "partial", "theorems": ["GC.C112_views", "GC.C112_round_trip", "GC.C112_update_parts", "GC.C112_to_dict_violation"], "note": "all views and the exact condition for update_parts are proved; violated by writing to the dictionary that to_dict returns, which is the live one"},
 {"property": "C113", "status": "proved", "theorems": ["GC.C113_slow_law", "GC.C113_slow_find_iff", "GC.C113_slow_positive", "GC.C113_slow_long", "GC.C113_bi_law", "GC.C113_bi_find_iff", "GC.C113_bi_positive", "GC.C113_bi_long", "GC.C113_recom_law", "GC.C113_recom_find_iff", "GC.C113_recom_positive", "GC.C113_recom_long"], "note": "law of tilted runs and bursts in both directions, exact condition for finding the optimum, always for p > 0"},
 {"property": "C114", "status": "proved", "theorems": ["GC.C114_slow_run", "GC.C114_slow_converges", "GC.C114_slow_last", "GC.C114_bi_run", "GC.C114_bi_converges", "GC.C114_bi_last", "GC.C114_no_parent"], "note": "Lists of plans, ensemble averages and the law of the last plan, with cut_edge_accept."},
 {"property": "C115", "status": "proved", "theorems": ["GC.C115_always_run", "GC.C115_always_converges", "GC.C115_cut_run", "GC.C115_cut_converges", "GC.C115_cut_last", "GC.C115_balanced", "GC.C115_not_proportional"], "note": "propose_random_flip with always_accept and with cut_edge_accept; the weights are the only ones for which as much flows into each plan as out of it."},
 {"property": "C116", "status": "partial", "theorems": ["GC.C116_recorded", "GC.C116_areas", "GC.C116_returns_iff", "GC.C116_same_graph", "GC.C116_argument_partial", "GC.C116_from_file_partial", "GC.C116_argument_violation", "GC.C116_override_violation", "GC.C116_from_file_violation", "GC.C116_from_file_missing_violation"], "note": "from_geodataframe records the system its numbers are in. from_file with reproject=True records that of the file instead, and raises for a file without one; crs_override never replaces a system and changes the table of the caller: the code violates these parts, witnesses proved."},
 {"property": "C117", "status": "partial", "theorems": ["GC.C117_item", "GC.C117_attr_partial", "GC.C117_hasattr_partial", "GC.C117_dict", "GC.C117_frozen", "GC.C117_attr_violation", "GC.C117_hasattr_violation", "GC.C117_in_violation", "GC.C117_copy_violation", "GC.C117_frozen_violation"], "note": "Brackets and dict hold for all histories. Names of slots and methods hide updaters, hasattr and in raise KeyError, and copying never returns: the code violates these parts, witnesses proved."},
 {"property": "C118", "status": "proved", "theorems": ["GC.C118_slow_law", "GC.C118_slow_find", "GC.C118_bi_law", "GC.C118_bi_find", "GC.C118_recom_law", "GC.C118_recom_find", "GC.C118_jumpcycle", "GC.C118_linearcycle", "GC.C118_linear_jumpcycle", "GC.C118_overflow"], "note": "Periodic schedules; no overflow of math.exp assumed, and C118_overflow shows what happens otherwise. Random numbers are multiples of 1/N."},
 {"property": "C119", "status": "proved", "theorems": ["GC.C119_names", "GC.C119_own_names", "GC.C119_other_field", "GC.C119_same_value", "GC.C119_unregistered"], "note": "Exact condition on the registered names for all histories; what the children report otherwise."},
 {"property": "C12", "status": "proved", "theorems": ["GC.C12_one_winner"], "note": ""},
 {"property": "C120", "status": "partial", "theorems": ["GC.C120_east_west", "GC.C120_north_south", "GC.C120_side", "GC.C120_further_north", "GC.C120_accepted_partial", "GC.C120_to_east_west", "GC.C120_to_off_centre", "GC.C120_round_trip", "GC.C120_to_south_violation", "GC.C120_equator_violation", "GC.C120_dateline_violation", "GC.C120_letter_violation"], "note": "from_latlon is mirrored at both axes; to_latlon at the central meridian only. Points of the equator come back north of it; longitude 180 and forced letters are rejected by to_latlon."},
 {"property": "C121", "status": "partial", "theorems": ["GC.C121_same_run", "GC.C121_slow_find_iff", "GC.C121_bi_find_iff", "GC.C121_slow_trap", "GC.C121_bi_trap", "GC.C121_violation", "GC.C121_slow_grows", "GC.C121_bi_grows"], "note": "The code violates the property for stuck_buffer >= 1 (C121_violation, C121_slow_trap, C121_bi_trap); proved instead: the run equals short_bursts with burst_length 2, and exactly when it finds the best plan. For stuck_buffer <= 0 the property is proved (C121_slow_grows, C121_bi_grows). Numbers of proposals per step and the size of the random range as in C109."},
 {"property": "C122", "status": "proved", "theorems": ["GC.C122_find_iff", "GC.C122_trap", "GC.C122_grows", "GC.C122_two_districts", "GC.C122_row"], "note": "Bounds on the numbers of proposals and attempts as in C110. C122_row is a concrete case with three districts in which stuck_buffer >= 1 never finds the best plan and stuck_buffer 0 does."},
 {"property": "C123", "status": "proved", "theorems": ["GC.C123_child", "GC.C123_chance", "GC.C123_symmetric", "GC.C123_reaches", "GC.C123_total"], "note": ""},
 {"property": "C124", "status": "proved", "theorems": ["GC.C124_run", "GC.C124_converges", "GC.C124_last", "GC.C124_free", "GC.C124_count", "GC.C124_uniform", "GC.C124_not_equal", "GC.C124_applies", "GC.C124_objects", "GC.C124_object_converges", "GC.C124_object_last"], "note": "On plans and on partition objects; the object theorems take constraints on the plan or on the number of cut edges."},
 {"property": "C125", "status": "proved", "theorems": ["GC.C125_run", "GC.C125_converges", "GC.C125_last", "GC.C125_object_last", "GC.C125_no_cuts"], "note": ""},
 {"property": "C13", "status": "proved", "theorems": ["GC.C13_next_calls", "GC.C13_list_length", "GC.C13_list_returns", "GC.C13_zero_steps"], "note": "proposals, constraints and acceptance functions are arbitrary but do not themselves raise StopIteration"},
 {"property": "C14", "status": "proved", "theorems": ["GC.C14_moves", "GC.C14_states_valid"], "note": ""},
 {"property": "C15", "status": "proved", "theorems": ["GC.C15_init_raises_iff", "GC.C15_setter_atomic", "GC.C15_atomic_general"], "note": "constraints return booleans and have a __name__"},
 {"property": "C16", "status": "proved", "theorems": ["GC.C16_bounded_ancestors", "GC.C16_one_generation"], "note": ""},
 {"property": "C17", "status": "proved", "theorems": ["GC.C17_iter_restarts"], "note": ""},
 {"property": "C18", "status": "proved", "theorems": ["GC.C18_next_iff", "GC.C18_blocks_iff"], "note": ""},
 {"property": "C19", "status": "proved", "theorems": ["GC.C19_validator_true", "GC.C19_validator_false", "GC.C19_validator_error"], "note": ""},
 {"property": "C20", "status": "partial", "theorems": ["GC.C20_bounds", "GC.C20_one_sided", "GC.C20_generator_violation"], "note": "proved for functions returning a container; for a one-shot iterator Bounds raises ValueError even if all values are in range (witness family)"},
 {"property": "C21", "status": "partial", "theorems": ["GC.C21_keeps_first_bound_partial", "GC.C21_effective_bound", "GC.C21_zero_bound_violation"], "note": "holds when the configured bound is non-zero; false for a zero bound (witness), exact behaviour proved"},
 {"property": "C22", "status": "proved", "theorems": ["GC.C22_within_percent_of_ideal", "GC.C22_deviation", "GC.C22_tolerance"], "note": "exact arithmetic; deviation needs a non-zero total population"},
 {"property": "C23", "status": "proved", "theorems": ["GC.C23_initial", "GC.C23_child", "GC.C23_fresh", "GC.C23_parent_needed", "GC.C23_erased_parent"], "note": "The parent hypothesis is shown to be needed; after the parent attribute is erased only districts that gained nodes are examined."},
 {"property": "C24", "status": "proved", "theorems": ["GC.C24_bfs_agrees", "GC.C24_emptied_district"], "note": "For nonempty districts, as quantified. On an emptied district contiguous() raises NetworkXPointlessConcept and contiguous_bfs() StopIteration."},
 {"property": "C25", "status": "proved", "theorems": ["GC.C25_single_flip", "GC.C25_nonadjacent_violation", "GC.C25_multi_flip_violation", "GC.C25_empty_flip"], "note": "Exactness for single boundary flips; witnesses that it is not sound otherwise."},
 {"property": "C26", "status": "proved", "theorems": ["GC.C26_are_reachable"], "note": ""},
 {"property": "C27", "status": "proved", "theorems": ["GC.C27_no_vanishing"], "note": ""},
 {"property": "C28", "status": "partial", "theorems": ["GC.C28_no_new_splits", "GC.C28_flag_partial", "GC.C28_initial_flags", "GC.C28_new_stays_new", "GC.C28_erased_parent"], "note": "The chain claim is proved for all runs. The claim about the flag is false as stated (two witnesses); the exact rule and the case of a parent without NEW flags are proved."},
 {"property": "C29", "status": "proved", "theorems": ["GC.C29_region_splits", "GC.C29_total", "GC.C29_disconnected_region"], "note": "Exact count for all histories; equality with the number of regions meeting two districts under connected regions, and a witness that connectedness is needed."},
 {"property": "C30", "status": "partial", "theorems": ["GC.C30_scores_partial", "GC.C30_reports_last", "GC.C30_scores_change", "GC.C30_zero_population", "GC.C30_allowed_pieces"], "note": "The integer scores follow their definitions right after scoring. Stability is false: all partitions share one dictionary. allowed_pieces is not used by any score in the code."},
 {"property": "C31", "status": "proved", "theorems": ["GC.C31_contraction", "GC.C31_contraction_one_sided", "GC.C31_two_nodes", "GC.isTree_iff_mathlib"], "note": "Trees with at least three nodes; on one or two nodes there is no root of degree > 1 and the code raises IndexError (C31_two_nodes). One-sided contraction tests only the side away from the root, strictly (C31_contraction_one_sided)."},
 {"property": "C32", "status": "proved", "theorems": ["GC.C32_memoization", "GC.C32_memoization_one_sided", "GC.C31_two_nodes"], "note": "Trees with at least three nodes."},
 {"property": "C33", "status": "proved", "theorems": ["GC.C33_same_edges"], "note": "The two lists of edges are permutations of each other, for independent random worlds and roots."},
 {"property": "C34", "status": "proved", "theorems": ["GC.C34_bipartition_tree", "GC.C34_random_all", "GC.C34_outcomes", "GC.C34_default", "GC.balanceOk_memo", "GC.balanceOk_contr", "GC.choiceOk_region"], "note": "bipartition_tree and _bipartition_tree_random_all for every spanning tree function returning spanning trees, both cut finders, every cut choice; C34_outcomes: bounded attempts end in a set or the documented exception"},
 {"property": "C35", "status": "partial", "theorems": ["GC.C35_random_partial", "GC.C35_violation"], "note": "the flag one_sided_cut=False is ignored: violation on a path of three nodes; proved: the returned side is balanced and both sides are connected"},
 {"property": "C36", "status": "proved", "theorems": ["GC.C36_recursive_tree_part", "GC.C36_default"], "note": "for every method returning nodes of the given graph; C36_default for bipartition_tree as method"},
 {"property": "C37", "status": "proved", "theorems": ["GC.C37_epsilon_tree_bipartition"], "note": ""},
 {"property": "C38", "status": "proved", "theorems": ["GC.C38_recom", "GC.C38_default", "GC.C38_loop"], "note": "For every method that returns connected balanced sets; C38_default for bipartition_tree with random spanning trees. On partition objects in the heap model."},
 {"property": "C39", "status": "partial", "theorems": ["GC.C39_metagraph_error_partial", "GC.C39_endless", "GC.C39_only_if", "GC.C39_violation"], "note": "The claim fails: with a non-adjacent pair of districts the loop never ends (C39_endless, concrete case C39_violation). C39_metagraph_error_partial: MetagraphError is raised if all pairs are adjacent and fail, for fair generators. C39_only_if: it is raised only when every pair failed."},
 {"property": "C40", "status": "partial", "theorems": ["GC.C40_ratio", "GC.C40_result", "GC.C40_reversible_recom", "GC.C40_errors_partial", "GC.C40_violation"], "note": "Ratio in (0,1], prob>1 never fires, result unchanged or a recombination: proved. The claim about the only balance error fails with repeat_until_valid=True (RuntimeError, C40_violation); C40_errors_partial lists all errors."},
 {"property": "C41", "status": "proved", "theorems": ["GC.C41_uniform_spanning_tree", "GC.C41_outcomes", "GC.spanOk_uniform"], "note": "Wilson's algorithm for all random choices; an endless random walk is the model's outOfFuel. The uniform distribution of the result is not modelled."},
 {"property": "C42", "status": "proved", "theorems": ["GC.C42_random_spanning_tree", "GC.C42_crossing_edges", "GC.C42_two_attributes", "GC.spanOk_random"], "note": "Spanning tree for all random numbers; a surcharge of at least 1 plus the other surcharges keeps connected regions connected in the tree. C42_two_attributes shows that the bound on the other surcharges is needed."},
 {"property": "C43", "status": "proved", "theorems": ["GC.C43_max_prime_factor"], "note": "termination included"},
 {"property": "C44", "status": "proved", "theorems": ["GC.C44_recursive_seed_part", "GC.C44_default", "GC.C44_too_many_chunks"], "note": "C44_default: with bipartition_tree as method the districts are also connected"},
 {"property": "C45", "status": "partial", "theorems": ["GC.C45_random_flip", "GC.C45_slow_reversible_partial", "GC.C45_slow_reversible_bi_partial", "GC.C45_every_district", "GC.C45_chunk_flip_partial", "GC.C45_complete", "GC.C45_no_boundary", "GC.C45_bi_value_error", "GC.C45_random_flip_total", "GC.C45_chunk_violation", "GC.C45_every_district_index_error"], "note": "propose_random_flip and propose_flip_every_district: proved. slow_reversible_propose and slow_reversible_propose_bi raise IndexError instead of returning the partition when there is no boundary (C45_no_boundary), and the latter raises ValueError for a node without neighbour in its own district (C45_bi_value_error); whenever they return, the claim holds. propose_chunk_flip does something else than claimed (C45_chunk_violation); C45_chunk_flip_partial says what it does."},
 {"property": "C46", "status": "partial", "theorems": ["GC.C46_exact", "GC.C46_contiguous", "GC.C46_flips", "GC.C46_total", "GC.C46_degree", "GC.C46_moves_distinct", "GC.C46_degree_partial", "GC.C46_degree_violation"], "note": "The enumeration is exact and complete (C46_exact, C46_flips, C46_total). metagraph_degree counts cut-edge ends (C46_degree), not distinct states (C46_degree_violation); it is right when no node has two neighbours in the same other district (C46_degree_partial)."},
 {"property": "C47", "status": "proved", "theorems": ["GC.C47_short_bursts", "GC.C47_single_run", "GC.C47_variable_length", "GC.C47_nan_remark"], "note": "For totally ordered scores, every proposal, constraint, acceptance function, consumer and also for runs that end with an exception. C47_nan_remark: a NaN initial score is never replaced. tilted_short_bursts is short_bursts with another acceptance function; simulated_annealing and tilted_run are the single run."},
 {"property": "C48", "status": "partial", "theorems": ["GC.C48_jumpcycle_value", "GC.C48_jumpcycle", "GC.C48_linearcycle_value", "GC.C48_linearcycle", "GC.C48_linear_jumpcycle_value", "GC.C48_linear_jumpcycle", "GC.C48_logitcycle_value", "GC.C48_logit_jumpcycle_value", "GC.C48_logit_unit", "GC.C48_logitcycle_partial", "GC.C48_logit_jumpcycle_partial", "GC.C48_logit_violation", "GC.C48_empty_cycle"], "note": "Everything proved except that with cooldown 0 the two logit schedules return 0 at the first cold step (C48_logit_violation). Exact arithmetic."},
 {"property": "C49", "status": "partial", "theorems": ["GC.C49_no_parent", "GC.C49_tilted", "GC.C49_tilted_probability", "GC.C49_anneal_partial", "GC.C49_anneal_probability", "GC.C49_overflow_violation"], "note": "Tilted: proved. Annealing: proved unless the improvement is so large that math.exp overflows, then OverflowError is raised (C49_overflow_violation). Probabilities as Lebesgue measure of the accepted draws in [0,1)."},
 {"property": "C50", "status": "partial", "theorems": ["GC.C50_count", "GC.C50_reward_values", "GC.C50_rank_partial", "GC.C50_reward_violation", "GC.C50_penalize_maximum", "GC.C50_penalize_average", "GC.C50_shares"], "note": "The two reward scores raise ValueError when every district is an opportunity district (C50_reward_violation); otherwise the ranking is strict. Penalty bounds proved for shares at most 1."},
 {"property": "C51", "status": "proved", "theorems": ["GC.C51_wasted", "GC.C51_efficiency_gap_bound", "GC.C51_efficiency_gap_swap", "GC.C51_efficiency_gap_formula", "GC.C51_median", "GC.C51_mean_median_swap", "GC.C51_thirdian_index", "GC.C51_mean_thirdian_total", "GC.C51_partisan_bias", "GC.C51_gini_symmetric", "GC.C51_ties_remark"], "note": "For every two-party result with votes (as every Election updater produces, twoParty_of_lookup). Exact arithmetic; NaN shares are modelled. C51_ties_remark shows why the swap of the efficiency gap needs districts without ties."},
 {"property": "C52", "status": "proved", "theorems": ["GC.C52_stats", "GC.C52_error", "GC.C52_cut_edges_iff", "GC.C52_unique_plans", "GC.C52_discontiguous_remark"], "note": "C52_unique_plans is stated for states read from any history of partition operations (ReadFrom). For discontiguous plans different plans can have equal cut edges and are counted once (C52_discontiguous_remark)."},
 {"property": "C53", "status": "proved", "theorems": ["GC.C53_graph", "GC.C53_boundary_nodes", "GC.C53_boundary_perim", "GC.C53_perimeter"], "note": "For sides at least 2, as stated. For one-row grids boundary_perim is wrong (C53_one_row_violation, C53_perimeter_violation)."},
 {"property": "C54", "status": "proved", "theorems": ["GC.C54_zone_number", "GC.C54_zone_letter", "GC.C54_from_latlon", "GC.C54_dateline_violation"], "note": "Exact rational coordinates. Longitude 180, which from_latlon accepts, gives the invalid zone 61 (C54_dateline_violation)."},
 {"property": "C55", "status": "partial", "theorems": ["GC.C55_defaults_plus_own_partial", "GC.C55_without_defaults", "GC.C55_flip_shares", "GC.C55_leak_violation", "GC.C55_violation", "GC.C55_grid_violation"], "note": "The claim is false: passed updaters are written into the class attribute and reach all partitions of the class (C55_leak_violation for all programs, C55_violation concrete); Grid writes its defaults into the user's dictionary and ignores same-named updaters (C55_grid_violation). Proved: holds when all constructions of the class pass compatible updaters, or with use_default_updaters=False."},
 {"property": "C56", "status": "proved", "theorems": ["GC.C56_transition_formula", "GC.C56_detailed_balance", "GC.C56_wilson_transition", "GC.C56_wilson_balance"], "note": "Probability is the average over all tapes of uniform numbers fed to the modelled reversible_recom. The first two theorems are exact, with an ideal uniform spanning tree; the other two are for the code's own Wilson algorithm, whose walks are unbounded, so they are limits over the tape length. Plans are sets of districts (unlabelled), distinct, connected, and all districts are within epsilon, which is the state space of the chain; repeat_until_valid is False (the default)."},
 {"property": "C57", "status": "proved", "theorems": ["GC.C57_reversible", "GC.C57_uniform"], "note": "Proved for all graphs, plans and valid generators."},
 {"property": "C58", "status": "proved", "theorems": ["GC.C58_cut_edge_accept"], "note": ""},
 {"property": "C59", "status": "partial", "theorems": ["GC.C59_components", "GC.C59_number", "GC.C59_no_more_discontiguous", "GC.C59_shared_bound_violation"], "note": "Components and count proved. The comparison is with the first plan the module-level constraint object was called on in the process, not with the initial plan of the chain; witness given."},
 {"property": "C60", "status": "partial", "theorems": ["GC.C60_within_percent_partial", "GC.C60_hundred_percent_violation"], "note": "holds for percent below 100 and non-zero first value; false at 100 percent (witness)"},
 {"property": "C61", "status": "proved", "theorems": ["GC.C61_contiguous_chain"], "note": ""},
 {"property": "C62", "status": "partial", "theorems": ["GC.C62_full_length_partial", "GC.C62_contiguous_noStop", "GC.C62_stop_iteration_leak"], "note": "Holds when no callable raises StopIteration; violated by contiguous_bfs on an emptied district."},
 {"property": "C63", "status": "proved", "theorems": ["GC.C63_region_choice"], "note": ""},
 {"property": "C64", "status": "proved", "theorems": ["GC.C64_never_unbalanced", "GC.C64_running_debt", "GC.debtTarget_ok"], "note": ""},
 {"property": "C65", "status": "proved", "theorems": ["GC.C65_recom_chain", "GC.recom_recombining", "GC.reversibleRecom_recombining"], "note": "For every proposal that recombines; the two lemmas show that recom and reversible_recom do."},
 {"property": "C66", "status": "proved", "theorems": ["GC.C66_short_bursts", "GC.C66_single_run", "GC.C66_variable_length"], "note": ""},
 {"property": "C67", "status": "partial", "theorems": ["GC.C67_never_grows", "GC.C67_violation"], "note": "The property is false: with stuck_buffer at least 1 the burst length never changes, proved for all scores that are functions of the state."},
 {"property": "C68", "status": "partial", "theorems": ["GC.C68_gini_range_partial", "GC.C68_violation", "GC.C68_no_districts"], "note": "The code comment says the score is between 0 and 1. Proved between 0 and 2 always and at most 1 when the statewide share is the mean of the district shares (equal turnout); C68_violation gives a plan with score 22/17."},
 {"property": "C69", "status": "proved", "theorems": ["GC.C69_default_plan", "GC.C69_halves"], "note": ""},
 {"property": "C70", "status": "partial", "theorems": ["GC.C70_list_of_lists_partial", "GC.C70_transposed_violation"], "note": "The result is the transposed nesting: entry (i,j) is the district of node (j,i). The claim in the docstring is false."},
 {"property": "C71", "status": "proved", "theorems": ["GC.C71_identify_zone", "GC.C71_identify_zone_errors"], "note": "The change of coordinate system is not modelled."},
 {"property": "C72", "status": "partial", "theorems": ["GC.C72_num_spanning_trees_partial", "GC.C72_district", "GC.C72_single_node_violation", "GC.C72_weight_violation"], "note": "Exact for every partition whose districts have at least two nodes, fewer than 2^1024 spanning trees and no weight attributes. Raises IndexError for a single-node district, OverflowError for 2^1024 trees or more, and counts weighted edges with their weight. Exact arithmetic instead of floats."},
 {"property": "C73", "status": "proved", "theorems": ["GC.C73_equally_likely", "GC.C73_uniform"], "note": "Random numbers are the tapes of Model/StrictTape: independent uniform numbers whose range is a multiple of every degree and of the number of nodes."},
 {"property": "C74", "status": "proved", "theorems": ["GC.C74_stationary", "GC.C74_balanced_flow"], "note": "C74_stationary is exact for an ideal uniform spanning tree. C74_balanced_flow is the same statement for the code's Wilson algorithm, as equality of the flows into and out of a plan in the limit of long tapes. Plans are unlabelled; repeat_until_valid is False."},
 {"property": "C75", "status": "proved", "theorems": ["GC.C75_retry", "GC.C75_waiting", "GC.C75_conditional", "GC.C75_limit"], "note": "Tape model of random numbers: probability = share of tapes; constraints and parent erasure draw no random numbers."},
 {"property": "C76", "status": "proved", "theorems": ["GC.C76_uniform_step", "GC.C76_limit", "GC.C76_detailed_balance", "GC.C76_stationary", "GC.C76_not_uniform"], "note": "Plans as values; given that the step is decided within n proposals (every n), and in the limit. C76_not_uniform: concrete chain for which the uniform distribution is not reversible."},
 {"property": "C77", "status": "proved", "theorems": ["GC.C77_random_flip", "GC.C77_cut_edge_accept", "GC.C77_flow_ratio", "GC.C77_not_uniform"], "note": "Plans as values. C77_not_uniform: concrete pair of plans whose flows differ."},
 {"property": "C78", "status": "partial", "theorems": ["GC.C78_spectral_partial", "GC.C78_flips", "GC.C78_contiguous", "GC.C78_outcomes", "GC.C78_violation"], "note": "The code does not guarantee contiguity (C78_violation); proved: frame, labels, both districts nonempty, one connected, contiguous if the eigenvector has no zero entry. Exact arithmetic, positive weights, a correct eigh."},
 {"property": "C79", "status": "partial", "theorems": ["GC.C79_unchanged_partial", "GC.C79_random_partial", "GC.C79_count_violation"], "note": "With weight_type=\"random\" the weights stay in the graph (C79_count_violation); without, the attributes are unchanged."},
 {"property": "C80", "status": "partial", "theorems": ["GC.C80_recom_support_partial", "GC.C80_complete", "GC.C80_sound", "GC.C80_violation"], "note": "The plans returned are exactly the balanced contiguous re-splits in which the district with the smaller label has at least two nodes; re-splits giving it a single node are never proposed (C80_violation)."},
 {"property": "C81", "status": "partial", "theorems": ["GC.C81_from_random_assignment", "GC.C81_chain", "GC.C81_one_district_violation"], "note": "For at least two districts. One district raises IndexError, none ZeroDivisionError (C81_one_district_violation)."},
 {"property": "C82", "status": "partial", "theorems": ["GC.C82_dict", "GC.C82_attribute", "GC.C82_assignment_partial", "GC.C82_districtr", "GC.C82_wrong_argument", "GC.C82_assignment_violation"], "note": "Missing: rebuilt from an Assignment with an empty district, that district disappears (C82_assignment_violation)."},
 {"property": "C83", "status": "proved", "theorems": ["GC.C83_join"], "note": "Exact success condition and result."},
 {"property": "C84", "status": "partial", "theorems": ["GC.C84_add_data_partial", "GC.C84_columns_violation"], "note": "Missing: columns that were not requested are added too (C84_columns_violation)."},
 {"property": "C85", "status": "proved", "theorems": ["GC.C85_adjacency", "GC.C85_rook_queen"], "note": "Answers of shapely are inputs assumed symmetric; the spatial index may over-approximate."},
 {"property": "C86", "status": "partial", "theorems": ["GC.C86_attributes_partial", "GC.C86_perimeter_partial", "GC.C86_overwrite_violation"], "note": "For tables without columns named area, boundary_node, boundary_perim; otherwise these are overwritten (C86_overwrite_violation)."},
 {"property": "C87", "status": "partial", "theorems": ["GC.C87_validation_partial", "GC.C87_reprojection_violation"], "note": "Without reprojection; with it the test of ignore_errors is inverted (C87_reprojection_violation)."},
 {"property": "C88", "status": "proved", "theorems": ["GC.C88_polsby_popper", "GC.C88_polygons", "GC.C88_grid", "GC.C88_norms", "GC.C88_exceptional", "GC.C88_one_row_violation"], "note": "C88_one_row_violation shows what the wrong boundary lengths of one-row grids (C53) do to the score: pi/2. Exact numbers instead of floats."},
 {"property": "C89", "status": "partial", "theorems": ["GC.C89_first_chain_partial", "GC.C89_library_partial", "GC.C89_later_chain_violation", "GC.C89_nan_violation", "GC.C89_two_chains_violation", "GC.C89_zero_violation", "GC.C89_first_chain_violation"], "note": "Holds for the first chain that uses the object unless the configured bound is zero, which counts as unset: then the next plan is not compared with it. The module-level objects are shared: later chains are judged by the bound of the first one, may be impossible to construct, or may accept much worse plans."},
 {"property": "C90", "status": "partial", "theorems": ["GC.C90_shannon_partial", "GC.C90_power_partial", "GC.C90_symmetric_partial", "GC.C90_history_partial", "GC.C90_number_violation", "GC.C90_symmetric_violation"], "note": "Exact values, bounds and equality cases for string localities (symmetric entropy: any names). Violated: numbered localities make shannon_entropy and power_entropy raise KeyError because the counter is read with str(locality); a district or locality without population makes symmetric_entropy raise ZeroDivisionError."},
 {"property": "C91", "status": "partial", "theorems": ["GC.C91_round_trip_partial", "GC.C91_portable", "GC.C91_loaded", "GC.C91_labels_violation", "GC.C91_id_violation", "GC.C91_values_violation", "GC.C91_names_violation"], "note": "Exact for graphs with string, number or Boolean labels, string names other than \"id\" and values JSON knows; whatever was loaded once survives. The property as stated is false: tuple labels cannot be loaded, \"id\" is lost, unknown values become None, numbered names become strings."},
 {"property": "C92", "status": "partial", "theorems": ["GC.C92_structure", "GC.C92_lookup_partial", "GC.C92_indices_partial", "GC.C92_subgraphs", "GC.C92_subgraph_items", "GC.C92_lookup_violation", "GC.C92_tree_part_violation", "GC.C92_random_violation", "GC.C92_indices_violation"], "note": "Neighbours, degrees and subgraphs: for every history. lookup: for attributes that are not assigned after freezing; node_indices: unless the returned set is changed. Both exceptions are proved to go wrong: stale values, and recursive_tree_part on a frozen graph removes all districts but the last from the remembered nodes."},
 {"property": "C93", "status": "proved", "theorems": ["GC.C93_step", "GC.C93_limit", "GC.C93_detailed_balance", "GC.C93_stationary", "GC.C93_two_districts", "GC.C93_value_error", "GC.C93_not_uniform"], "note": "For plans whose boundary nodes have a neighbour in their own district; C93_value_error gives the exact probability of the exception otherwise. The generator is modelled by draws from 0..N-1 with N divisible by the numbers of choices. C93_not_uniform: with three districts the moves are not equally likely."},
 {"property": "C94", "status": "partial", "theorems": ["GC.C94_clock_partial", "GC.C94_on_time_partial", "GC.C94_stands_still", "GC.C94_frozen_violation"], "note": "The schedule is called with the initial time + 1 + number of accepted moves, for every complete run; the claim that this is the time of the chain is false (frozen run of every length). Proposals that return the current plan itself are not covered."},
 {"property": "C95", "status": "proved", "theorems": ["GC.C95_transition_formula", "GC.C95_no_other_move", "GC.C95_one_cut", "GC.C95_reversible", "GC.C95_two_districts", "GC.C95_not_spanning_tree_distribution"], "note": "Uniform spanning trees (use_w… off), max_attempts a number, no region_surcharge, allow_pair_reselection off; random numbers are exact uniform draws. The probability of staying at the plan is given for two districts only."},
 {"property": "C96", "status": "partial", "theorems": ["GC.C96_remembered", "GC.C96_never_forgets", "GC.C96_first_graph_wins", "GC.C96_partial", "GC.C96_unregistered_alias", "GC.C96_unknown_node", "GC.C96_second_graph_violation", "GC.C96_corrected_votes_violation", "GC.C96_other_election_violation", "GC.C96_list_of_columns", "GC.C96_dict_of_columns", "GC.C96_key_is_alias", "GC.C96_unread_column"], "note": "the code violates the property when graphs disagree, columns change or the alias is not registered for the election; proved what is reported in all histories with registered aliases, and that it is right when graphs agree"},
 {"property": "C97", "status": "proved", "theorems": ["GC.C97_lightest", "GC.C97_surcharge", "GC.C97_law", "GC.C97_total", "GC.C97_positive", "GC.C97_not_uniform"], "note": "law stated for calls without surcharges; the error term is the exact bound on ties of the N-valued random numbers"},
 {"property": "C98", "status": "proved", "theorems": ["GC.C98_tree_chance", "GC.C98_transition_formula", "GC.C98_two_districts", "GC.C98_no_other_move", "GC.C98_not_reversible"], "note": "Exact formula for the default arguments with the tree probabilities of C97; non-reversibility shown on a graph with seven nodes. As in C95 the number of equally likely values of a random draw is a multiple of (2^edges)!, so that random.choice is exactly uniform."},
 {"property": "C99", "status": "partial", "theorems": ["GC.C99_reports", "GC.C99_one_run_partial", "GC.C99_finished_run", "GC.C99_lags", "GC.C99_current_plan_violation", "GC.C99_two_runs_violation", "GC.C99_foreign_start_violation", "GC.C99_failed_start_violation"], "note": "Exact for every history of calls, next and close (C99_reports) and for a single run up to the plan handed out last; the documented claim that the current plan counts, that runs do not interfere and that best_score belongs to best_part is violated."}
]}

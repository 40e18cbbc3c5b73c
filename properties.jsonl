{"id": "C01", "title": "Assignment views agree after any flip history", "statement": "Build a Partition from any node-to-district dictionary and apply any sequence of flip() calls that do not raise. In every partition produced, the district-to-nodes view (assignment.parts) and the node-to-district view (assignment.mapping) describe the same function: node n is in parts[d] exactly when mapping[n] == d. Every graph node lies in exactly one district, and len(assignment) is the number of nodes.", "quantifier": "all initial dictionaries, all finite sequences of flip dictionaries", "why_tests_cant": "The two views are updated by separate code (set difference/union versus item assignment), so agreement is an inductive invariant over unbounded flip histories; tests check a few short histories.", "anchors": ["gerrychain/partition/assignment.py: Assignment.__init__, from_dict, level_sets, update_flows, copy", "gerrychain/partition/partition.py: Partition.flip, _from_parent", "gerrychain/updaters/flows.py: flows_from_changes"]}
{"id": "C02", "title": "flip() changes exactly what was asked", "statement": "If partition.flip(flips) returns, the child assigns flips[n] to every flipped node n and the parent's district to every other node; the set of district labels is unchanged (districts may become empty but never disappear or appear).", "quantifier": "all partitions reachable by flips, all flip dictionaries", "why_tests_cant": "Quantifies over all partitions and all (multi-node, partly no-op) flip dictionaries.", "anchors": ["gerrychain/partition/partition.py: Partition.flip, _from_parent", "gerrychain/partition/assignment.py: update_flows"]}
{"id": "C03", "title": "flip() fails exactly on unknown nodes or unknown districts", "statement": "partition.flip(flips) raises KeyError exactly when some flipped node is not in the partition, or some node is sent to a district label that the partition does not have. In particular a flip can never create a new district.", "quantifier": "all partitions, all flip dictionaries", "why_tests_cant": "An iff over all flip dictionaries; tests only cover chosen error inputs.", "anchors": ["gerrychain/updaters/flows.py: flows_from_changes", "gerrychain/partition/assignment.py: update_flows"]}
{"id": "C04", "title": "cut_edges is history-independent and exact", "statement": "For any history of construction, flips, updater lookups in any order (each cached), and parent erasure by the Markov chain, partition['cut_edges'] is exactly the set of graph edges (endpoints sorted) whose endpoints are in different districts.", "quantifier": "all graphs, all finite interleavings of create / flip / lookup / parent-erasure operations", "why_tests_cant": "The updater is computed either from scratch or incrementally from the parent's cached value, depending on when it is first looked up; correctness over all schedules is an invariant of the whole object graph.", "anchors": ["gerrychain/updaters/cut_edges.py: cut_edges, new_cuts, obsolete_cuts", "gerrychain/updaters/flows.py: neighbor_flips", "gerrychain/partition/partition.py: __getitem__", "gerrychain/chain.py: __next__"]}
{"id": "C05", "title": "cut_edges_by_part is history-independent and exact", "statement": "In any such history, partition['cut_edges_by_part'][d] is exactly the set of cut edges with at least one endpoint in district d (the empty set if there is none).", "quantifier": "all graphs, all operation histories, all districts", "why_tests_cant": "Depends on edge flows computed at flip time and on parent's cached dictionary; all schedules matter.", "anchors": ["gerrychain/updaters/cut_edges.py: cut_edges_by_part, put_edges_into_parts", "gerrychain/updaters/flows.py: compute_edge_flows, on_edge_flow"]}
{"id": "C06", "title": "Tally equals the column sum per district in every history", "statement": "If the tallied columns contain no NaN, then in any history partition[tally][d], whenever the lookup returns and d has an entry, is the sum of the column values over the nodes of d; every nonempty district has an entry. If no district is ever emptied the lookup never raises.", "quantifier": "all graphs, data columns without NaN, all operation histories", "why_tests_cant": "Incremental subtract/add along flows versus from-scratch sums, over all schedules.", "anchors": ["gerrychain/updaters/tally.py: Tally, DataTally, compute_out_flow, compute_in_flow", "gerrychain/updaters/flows.py: on_flow, flows_from_changes"]}
{"id": "C07", "title": "Tally ignores NaN consistently", "statement": "NaN entries in a tallied column are ignored: the tally of a district is the sum of its non-NaN entries no matter how the partition was reached.", "quantifier": "all data columns including NaN, all histories", "why_tests_cant": "The warning only appears on initialisation; consistency across incremental updates needs all histories. (Expected to fail: incremental updates do not skip NaN.)", "anchors": ["gerrychain/updaters/tally.py: DataTally.__init__ (initialize_tally/update_tally), Tally._initialize_tally, Tally._update_tally"]}
{"id": "C08", "title": "Existing partitions are never altered by flips or lookups", "statement": "Creating a child with flip(), looking up any updater on any partition, or erasing parents never changes the assignment of a partition that already exists, nor any value it has already reported.", "quantifier": "all operation histories, all existing partitions", "why_tests_cant": "Python dictionaries are shared and mutable; aliasing bugs appear only for particular interleavings.", "anchors": ["gerrychain/partition/assignment.py: copy, update_flows", "gerrychain/partition/partition.py: _from_parent, __getitem__"]}
{"id": "C09", "title": "Boundary and perimeter updaters are exact in every history", "statement": "In any history, partition['exterior_boundaries'][d] is the sum of boundary_perim over boundary nodes in d, partition['interior_boundaries'][d] is the total shared_perim of cut edges touching d, and partition['perimeter'][d] is their sum.", "quantifier": "all graphs with boundary data, all operation histories, all districts", "why_tests_cant": "Incremental update along node and edge flows; all schedules.", "anchors": ["gerrychain/updaters/compactness.py: exterior_boundaries, interior_boundaries, perimeter, boundary_nodes, exterior_boundaries_as_a_set"]}
{"id": "C10", "title": "exterior_boundaries_as_a_set is exact in every history", "statement": "In any history, partition['exterior_boundaries_as_a_set'][d] is exactly the set of boundary nodes assigned to d.", "quantifier": "all graphs, all operation histories, all districts", "why_tests_cant": "Incremental set update along flows; all schedules.", "anchors": ["gerrychain/updaters/compactness.py: exterior_boundaries_as_a_set, boundary_nodes"]}
{"id": "C11", "title": "Election results are exact and percentages are shares", "statement": "In any history an Election updater reports, for each district, each party's vote sum and total votes; each party's percent equals votes/total when total > 0 (NaN otherwise); percents over parties sum to 1 in each district with positive total, and the statewide percent equals the vote share of the summed votes.", "quantifier": "all elections with any number of distinctly named parties, all vote columns without NaN (NaN columns are C07), all histories", "why_tests_cant": "Numeric identity over all vote data and histories.", "anchors": ["gerrychain/updaters/election.py: Election, ElectionUpdater, get_percents, ElectionResults"]}
{"id": "C12", "title": "At most one winner per district; seats are bounded", "statement": "For any election results at most one party has won a given district, ties give no winner, and seats summed over all parties never exceed the number of districts (equality iff no district is tied or empty of votes at the top).", "quantifier": "all vote tables, any number of parties and districts", "why_tests_cant": "Combinatorial claim for all vote tables.", "anchors": ["gerrychain/updaters/election.py: ElectionResults.won, wins, seats"]}
{"id": "C13", "title": "MarkovChain yields exactly its length, starting from the initial state", "statement": "Iterating MarkovChain(total_steps=n) with n >= 1 yields exactly n states, the first being initial_state, and then StopIteration forever (unless re-iterated). For n = 0 the claim len(chain) == number of yields fails: one state is yielded.", "quantifier": "all n, all proposals, constraints and acceptance functions, all random outcomes for which the run terminates", "why_tests_cant": "Holds for every random outcome; tests run a few seeds.", "anchors": ["gerrychain/chain.py: MarkovChain.__iter__, __next__, __len__"]}
{"id": "C14", "title": "Every yielded state is valid and every move was proposed and accepted", "statement": "Every state yielded by a MarkovChain satisfies all constraints; each yielded state after the first is either the previous state or a proposal made from the previous state that satisfied the constraints and was accepted.", "quantifier": "all chains, all random outcomes", "why_tests_cant": "A safety property of all executions.", "anchors": ["gerrychain/chain.py: MarkovChain.__next__, __init__", "gerrychain/constraints/validity.py: Validator"]}
{"id": "C15", "title": "Invalid initial states are rejected, constraint changes are atomic", "statement": "MarkovChain construction raises ValueError exactly when the initial state violates the constraints; assigning to chain.constraints raises ValueError and keeps the old constraints exactly when the initial state violates the new ones.", "quantifier": "all constraint lists, all initial states", "why_tests_cant": "Covers all constraint lists.", "anchors": ["gerrychain/chain.py: MarkovChain.__init__, constraints setter"]}
{"id": "C16", "title": "A running chain holds at most one generation of ancestors", "statement": "After every step of a MarkovChain, the current state's parent, if any, has no parent itself, so memory does not grow with the number of steps.", "quantifier": "all chains and run lengths, including proposals that return the same object", "why_tests_cant": "Holds at every step of unbounded runs, for all proposals.", "anchors": ["gerrychain/chain.py: MarkovChain.__next__ (erase parent)"]}
{"id": "C17", "title": "Iterating a chain again restarts it from the initial state", "statement": "Calling iter() on a chain at any point resets the counter and state, so the next iteration again starts with initial_state and yields the full number of steps.", "quantifier": "all chains, any number of previous steps", "why_tests_cant": "All interruption points.", "anchors": ["gerrychain/chain.py: MarkovChain.__iter__"]}
{"id": "C18", "title": "Invalid proposals are retried without being counted; the chain blocks only if none is valid", "statement": "A step of the chain re-proposes from the same state until a valid proposal appears, and returns at the first valid one; if no proposal is ever valid the step never returns.", "quantifier": "all random proposal sequences", "why_tests_cant": "Concerns unbounded retry loops.", "anchors": ["gerrychain/chain.py: MarkovChain.__next__"]}
{"id": "C19", "title": "Validator is a conjunction with short-circuit and type check", "statement": "A Validator accepts a partition exactly when every constraint returns True; it returns False at the first constraint that returns False, and raises TypeError at the first constraint that returns a non-boolean if all earlier ones returned True.", "quantifier": "all lists of constraints, all partitions", "why_tests_cant": "All constraint lists and orders.", "anchors": ["gerrychain/constraints/validity.py: Validator.__call__"]}
{"id": "C20", "title": "Bounds constraints accept exactly the stated range", "statement": "Bounds(f,(lo,hi)) accepts iff every value of f is within [lo,hi]; UpperBound accepts iff f(p) <= bound; LowerBound iff f(p) >= bound; Bounds raises on an empty set of values.", "quantifier": "all value collections and bounds", "why_tests_cant": "All numeric inputs.", "anchors": ["gerrychain/constraints/bounds.py: Bounds, UpperBound, LowerBound"]}
{"id": "C21", "title": "Self-configuring bounds keep the first partition's value as the bound", "statement": "A SelfConfiguringUpperBound (LowerBound) first called on p0 accepts p iff f(p) <= f(p0) (f(p) >= f(p0)-epsilon) ever after. Holds whenever the configured bound is non-zero; fails when it is zero (falsy), where the bound is silently reconfigured.", "quantifier": "all first partitions and all later call sequences", "why_tests_cant": "History-dependent state of the constraint object.", "anchors": ["gerrychain/constraints/bounds.py: SelfConfiguringUpperBound, SelfConfiguringLowerBound, WithinPercentRangeOfBounds"]}
{"id": "C22", "title": "Population constraints are exact", "statement": "within_percent_of_ideal_population(p0, e) accepts a partition iff each district population is within [(1-e)*ideal,(1+e)*ideal] where ideal is the mean population of p0; deviation_from_ideal reports (pop-ideal)/ideal and the deviations sum to zero; districts_within_tolerance accepts iff max-min <= tolerance*min with percentages above 1 read as percent.", "quantifier": "all population tables and tolerances", "why_tests_cant": "All numeric inputs.", "anchors": ["gerrychain/constraints/validity.py: within_percent_of_ideal_population, deviation_from_ideal, districts_within_tolerance"]}
{"id": "C23", "title": "contiguous() decides contiguity along any chain of contiguous plans", "statement": "For a partition without flips, contiguous() is True iff every district induces a connected subgraph. For a child whose parent is contiguous, contiguous() is True iff every district of the child is connected. (Without the parent hypothesis only changed districts are examined.)", "quantifier": "all graphs, partitions and flips", "why_tests_cant": "The constraint looks only at affected districts; soundness needs an argument over all flips.", "anchors": ["gerrychain/constraints/contiguity.py: contiguous, affected_parts"]}
{"id": "C24", "title": "contiguous_bfs agrees with connectivity", "statement": "contiguous_bfs() returns True iff every affected district induces a connected subgraph, i.e. it always agrees with contiguous().", "quantifier": "all graphs and partitions with nonempty districts", "why_tests_cant": "Correctness of a hand-written graph search for all graphs.", "anchors": ["gerrychain/constraints/contiguity.py: contiguous_bfs, _bfs"]}
{"id": "C25", "title": "single_flip_contiguous is exact for single boundary flips", "statement": "If the parent is contiguous and the child flips one node v from district A to another district B that contains a neighbour of v, then single_flip_contiguous(child) is True iff all districts of the child are connected and A is not emptied. It is not sound for non-adjacent target districts or for multi-node flips.", "quantifier": "all graphs, contiguous parents, single flips, all random choices of start neighbour", "why_tests_cant": "Local search correctness for all graphs and all random choices.", "anchors": ["gerrychain/constraints/contiguity.py: single_flip_contiguous, are_reachable"]}
{"id": "C26", "title": "are_reachable decides reachability through allowed nodes", "statement": "The local reachability search returns True iff every target can be reached from the source by a path whose intermediate nodes all pass the avoid test, whatever the heap tie-breaking.", "quantifier": "all graphs, avoid predicates, targets", "why_tests_cant": "Search algorithm correctness for all graphs.", "anchors": ["gerrychain/constraints/contiguity.py: are_reachable"]}
{"id": "C27", "title": "no_vanishing_districts detects emptied districts", "statement": "no_vanishing_districts(p) is True iff p has no (truthy) parent or every district of p is nonempty.", "quantifier": "all partitions", "why_tests_cant": "All partitions.", "anchors": ["gerrychain/constraints/validity.py: no_vanishing_districts"]}
{"id": "C28", "title": "refuse_new_splits keeps the set of split counties from growing", "statement": "In a chain constrained by refuse_new_splits every yielded partition splits only counties already split in the initial partition; a county is flagged NEW_SPLIT iff it is split now and was not split before.", "quantifier": "all graphs, county labels, chain executions", "why_tests_cant": "Invariant across an unbounded chain.", "anchors": ["gerrychain/updaters/county_splits.py: county_splits, compute_county_splits", "gerrychain/constraints/validity.py: refuse_new_splits"]}
{"id": "C29", "title": "Region split tallies count split regions", "statement": "tally_region_splits reports for each region attribute the number of regions having a cut edge inside; if every region is connected this equals the number of regions that meet at least two districts.", "quantifier": "all graphs, partitions, region labels", "why_tests_cant": "Graph-theoretic equivalence for all graphs.", "anchors": ["gerrychain/updaters/county_splits.py: tally_region_splits, total_reg_splits"]}
{"id": "C30", "title": "LocalitySplits scores follow their definitions and are stable", "statement": "num_parts is the number of (locality, district) incidences, num_split_localities the number of localities meeting more than one district (respecting allowed pieces), num_pieces the number of connected intersections, and a partition's reported scores do not change when other partitions are scored later (this last part is expected to fail).", "quantifier": "all graphs, localities, partitions, evaluation orders", "why_tests_cant": "Aliasing of the returned dictionary shows only for certain evaluation orders.", "anchors": ["gerrychain/updaters/locality_split_scores.py: LocalitySplits"]}
{"id": "C31", "title": "Contraction finds exactly the balanced tree edges", "statement": "On any tree with a chosen root of degree > 1, find_balanced_edge_cuts_contraction returns exactly one cut per tree edge whose removal leaves populations within epsilon of the target; the reported node subset is one of the two sides of the edge.", "quantifier": "all trees, populations, targets, epsilons, roots", "why_tests_cant": "Algorithm correctness for all trees.", "anchors": ["gerrychain/tree.py: find_balanced_edge_cuts_contraction, PopulatedGraph.contract_node, has_ideal_population"]}
{"id": "C32", "title": "Memoization finds exactly the balanced tree edges", "statement": "On any tree with a chosen root of degree > 1, find_balanced_edge_cuts_memoization returns exactly one cut per tree edge with both sides balanced (two-sided), or exactly one cut per tree edge with at least one balanced side (one-sided); the reported subset is one of the two sides and, for one-sided cuts, a balanced one.", "quantifier": "all trees, populations, targets, epsilons, roots", "why_tests_cant": "Algorithm correctness for all trees.", "anchors": ["gerrychain/tree.py: find_balanced_edge_cuts_memoization, _calc_pops, _part_nodes"]}
{"id": "C33", "title": "The two balanced-cut algorithms agree", "statement": "With two-sided cuts the contraction and the memoization algorithm return cuts on the same set of tree edges.", "quantifier": "all trees, populations, targets, epsilons, roots", "why_tests_cant": "Equivalence of two algorithms on all inputs.", "anchors": ["gerrychain/tree.py: find_balanced_edge_cuts_contraction, find_balanced_edge_cuts_memoization"]}
{"id": "C34", "title": "bipartition_tree returns a balanced connected bipartition", "statement": "Whenever bipartition_tree returns, the returned node set and its complement are nonempty, each induces a connected subgraph, and the populations meet the requested balance (both sides for a two-sided cut, the returned side for a one-sided cut), for every spanning-tree function that returns spanning trees and every cut choice.", "quantifier": "all connected graphs, populations, random outcomes", "why_tests_cant": "Holds for every random outcome.", "anchors": ["gerrychain/tree.py: bipartition_tree, bipartition_tree_random, _bipartition_tree_random_all"]}
{"id": "C35", "title": "bipartition_tree_random honours one_sided_cut", "statement": "bipartition_tree_random(one_sided_cut=False) returns only node sets whose complement is balanced too. (Expected to fail: the flag is ignored and one-sided cuts are always used.)", "quantifier": "all graphs and random outcomes", "why_tests_cant": "Particular trees are needed to see the violation.", "anchors": ["gerrychain/tree.py: bipartition_tree_random"]}
{"id": "C36", "title": "recursive_tree_part covers all nodes with balanced districts", "statement": "Whenever recursive_tree_part returns, every node of the graph is assigned to exactly one of the given parts, every part has population within [pop_target*(1-eps), pop_target*(1+eps)], and when the method returns connected bipartitions every part is connected.", "quantifier": "all graphs, part lists with at least two entries, all methods and random outcomes", "why_tests_cant": "Holds for every random outcome and recursion depth.", "anchors": ["gerrychain/tree.py: recursive_tree_part"]}
{"id": "C37", "title": "epsilon_tree_bipartition covers all nodes with two balanced connected parts", "statement": "Whenever epsilon_tree_bipartition returns, every node is assigned to one of the two parts, both populations are within epsilon of the target, both parts are connected.", "quantifier": "all graphs, methods, random outcomes", "why_tests_cant": "Holds for every random outcome.", "anchors": ["gerrychain/tree.py: epsilon_tree_bipartition"]}
{"id": "C38", "title": "recom changes two adjacent districts only and preserves balance, contiguity and the number of districts", "statement": "Whenever recom returns, the child differs from the parent only inside the union of two districts joined by a cut edge; both new districts are nonempty, connected and within epsilon of pop_target; all other districts are unchanged; hence contiguity and the number of districts are preserved.", "quantifier": "all graphs, partitions, random outcomes", "why_tests_cant": "Composition of several algorithms over all random outcomes.", "anchors": ["gerrychain/proposals/tree_proposals.py: recom", "gerrychain/tree.py: epsilon_tree_bipartition, bipartition_tree"]}
{"id": "C39", "title": "recom reports failure when no pair of districts can be recombined", "statement": "If every pair of adjacent districts fails to be recombined (with pair reselection), recom raises MetagraphError rather than looping. (Expected to hold only when every pair of districts is adjacent; otherwise it loops forever.)", "quantifier": "all partitions and random outcomes", "why_tests_cant": "Concerns termination.", "anchors": ["gerrychain/proposals/tree_proposals.py: recom"]}
{"id": "C40", "title": "reversible_recom's acceptance probability is a probability", "statement": "In reversible_recom the computed acceptance ratio is always in (0,1]; the 'number of balance edges exceeds M' error is the only way it raises for balance reasons, and the check 'prob > 1' never fires; the result is either the unchanged partition or a recombination of two districts.", "quantifier": "all partitions, M, random outcomes", "why_tests_cant": "All random outcomes.", "anchors": ["gerrychain/proposals/tree_proposals.py: reversible_recom"]}
{"id": "C41", "title": "uniform_spanning_tree returns a spanning tree", "statement": "Whenever uniform_spanning_tree returns on a connected graph with at least two nodes, the result is a spanning tree of the graph, for all random walks. (For a single node the returned graph is empty.)", "quantifier": "all connected graphs, all random walks", "why_tests_cant": "All random walks.", "anchors": ["gerrychain/tree.py: uniform_spanning_tree"]}
{"id": "C42", "title": "random_spanning_tree respects region surcharges", "statement": "random_spanning_tree returns a spanning tree; with a surcharge of at least 1 on a region attribute every region that is connected in the graph is also connected inside the tree (so that the tree has only as many region-crossing edges as needed).", "quantifier": "all connected graphs, all random weights in [0,1), all region labellings", "why_tests_cant": "Extremal property for all random weights.", "anchors": ["gerrychain/tree.py: random_spanning_tree"]}
{"id": "C43", "title": "get_max_prime_factor_less_than is the largest prime factor up to the ceiling", "statement": "For n >= 1 the function returns the largest prime p dividing n with p <= ceil, and None when there is none.", "quantifier": "all positive integers n and all integer ceilings", "why_tests_cant": "Number-theoretic claim for all integers.", "anchors": ["gerrychain/tree.py: get_max_prime_factor_less_than"]}
{"id": "C44", "title": "recursive_seed_part covers all nodes with the requested number of balanced districts", "statement": "Whenever recursive_seed_part returns (with a method that returns nonempty proper subsets meeting the requested balance), each node is in exactly one district, there are exactly len(parts) nonempty districts and, for at least two parts, each district's population is within epsilon of pop_target.", "quantifier": "all graphs, numbers of districts, n and ceil parameters, random outcomes", "why_tests_cant": "Recursive structure over all numbers of districts.", "anchors": ["gerrychain/tree.py: recursive_seed_part, recursive_seed_part_inner, get_seed_chunks"]}
{"id": "C45", "title": "Flip proposals move boundary nodes to adjacent districts", "statement": "propose_random_flip, slow_reversible_propose and slow_reversible_propose_bi return either the partition itself (when there is no boundary) or a child differing in one node which is moved to a different district containing one of its neighbours; propose_chunk_flip moves a boundary node and those of its neighbours in the same district; propose_flip_every_district changes only boundary nodes to a neighbouring district.", "quantifier": "all partitions, all random outcomes", "why_tests_cant": "All random outcomes.", "anchors": ["gerrychain/proposals/proposals.py"]}
{"id": "C46", "title": "Metagraph neighbours are exactly the valid one-node boundary flips", "statement": "all_valid_states_one_flip_away yields exactly the partitions obtained by moving one end of a cut edge to the other end's district and accepted by the constraints (others keep out); metagraph_degree counts distinct neighbour states (this part is expected to fail: it counts cut-edge ends).", "quantifier": "all partitions and constraints", "why_tests_cant": "Completeness of an enumeration.", "anchors": ["gerrychain/metagraph.py"]}
{"id": "C47", "title": "Optimizer best-so-far is the best of all observed states", "statement": "During short_bursts, tilted_short_bursts, variable_length_short_bursts, simulated_annealing and tilted_run, after k states have been yielded and processed best_score is the optimum of the initial score and all observed scores and is attained by best_part; best_score never gets worse.", "quantifier": "all score functions, chains and random outcomes, both maximise and minimise", "why_tests_cant": "Invariant over unbounded runs.", "anchors": ["gerrychain/optimization/optimization.py: SingleMetricOptimizer"]}
{"id": "C48", "title": "Annealing schedules stay within [0,1] and are periodic", "statement": "jumpcycle, linearcycle, linear_jumpcycle, logitcycle and logit_jumpcycle beta functions return values in [0,1] at every step, are periodic in the cycle length, are 0 during the hot phase and 1 during the cold phase, and the logit argument is always strictly between 0 and 1.", "quantifier": "all durations, all steps", "why_tests_cant": "All parameters and steps.", "anchors": ["gerrychain/optimization/optimization.py: jumpcycle_beta_function, linearcycle_beta_function, linear_jumpcycle_beta_function, logitcycle_beta_function, logit_jumpcycle_beta_function"]}
{"id": "C49", "title": "Annealing and tilted acceptance always accept improvements", "statement": "The simulated annealing and tilted acceptance functions accept every state that is at least as good as its parent and every state without parent; at beta = 0 annealing accepts everything; a strictly worse state is accepted with probability exp(-beta*magnitude*loss) (annealing) or p (tilted).", "quantifier": "all scores, betas, random draws in [0,1)", "why_tests_cant": "All random draws.", "anchors": ["gerrychain/optimization/optimization.py: _tilted_acceptance_function, _simulated_annealing_acceptance_function, _is_improvement"]}
{"id": "C50", "title": "Gingleator scores rank plans by number of opportunity districts first", "statement": "num_opportunity_dists counts districts at or above the threshold; reward_partial_dist and reward_next_highest_close always score a plan with strictly more opportunity districts strictly higher; penalty scores never exceed the count plus one.", "quantifier": "all share tables and thresholds", "why_tests_cant": "Ordering claim for all plans.", "anchors": ["gerrychain/optimization/gingleator.py"]}
{"id": "C51", "title": "Partisan metrics are bounded and antisymmetric", "statement": "Wasted votes of the two parties in a district sum to half its votes; |efficiency_gap| <= 1/2; swapping the parties negates efficiency_gap (without ties), mean_median and maps partisan_gini to itself; partisan_bias lies in [-1/2,1/2); mean_thirdian always indexes an existing district.", "quantifier": "all vote tables", "why_tests_cant": "Numeric identities for all tables.", "anchors": ["gerrychain/metrics/partisan.py"]}
{"id": "C52", "title": "Diversity statistics count distinct plans and districts", "statement": "collect_diversity_stats passes the states through unchanged and reports after k states: k steps, the number of distinct district node sets, and the number of distinct cut-edge sets; for contiguous plans two plans have equal cut-edge sets iff they have the same districts up to relabelling.", "quantifier": "all chains of partitions", "why_tests_cant": "Counting claim over all runs, and a graph-theoretic equivalence.", "anchors": ["gerrychain/meta/diversity.py: collect_diversity_stats"]}
{"id": "C53", "title": "Grid graphs have the geometry they claim", "statement": "create_grid_graph marks exactly the outer nodes as boundary and, for grids with both sides at least 2, gives each its number of exposed sides as boundary_perim, so district perimeters equal geometric perimeters; with diagonals the extra edges have no shared perimeter.", "quantifier": "all grid sizes, all districts", "why_tests_cant": "All grid sizes and districts.", "anchors": ["gerrychain/grid.py: create_grid_graph, tag_boundary_nodes, get_boundary_perim, Grid"]}
{"id": "C54", "title": "UTM zone numbers are valid", "statement": "latlon_to_zone_number returns a zone in 1..60 whose central meridian is within 6 degrees of the longitude (3 outside the exceptional zones) for longitudes in [-180,180); latitude_to_zone_letter returns a letter exactly for latitudes in [-80,84]. (Longitude 180 is expected to fail: zone 61.)", "quantifier": "all latitudes and longitudes", "why_tests_cant": "All real inputs.", "anchors": ["gerrychain/vendor/utm/conversion.py: latlon_to_zone_number, latitude_to_zone_letter, zone_number_to_central_longitude"]}
{"id": "C55", "title": "A partition's updaters are the defaults plus its own", "statement": "A Partition has the default updaters and those passed to it and no others, regardless of which partitions were created before. (Expected to fail: passed updaters are written into the shared class-level dictionary.)", "quantifier": "all sequences of partition constructions", "why_tests_cant": "State shared across constructions.", "anchors": ["gerrychain/partition/partition.py: _first_time", "gerrychain/grid.py: Grid.__init__"]}
{"id": "C56", "title": "reversible_recom satisfies detailed balance for the spanning-tree distribution", "statement": "With a uniform spanning tree of the merged districts, the probability of moving from plan P to plan Q, times the product of the numbers of spanning trees of the districts of P, is symmetric in P and Q.", "quantifier": "all graphs, all pairs of plans, all M at least the number of balance edges", "why_tests_cant": "A probabilistic identity over all plans; sampling cannot establish it.", "anchors": ["gerrychain/proposals/tree_proposals.py: reversible_recom", "gerrychain/tree.py: _bipartition_tree_random_all"]}
{"id": "C57", "title": "slow_reversible_propose is reversible", "statement": "If slow_reversible_propose can move from P to Q by flipping v out of a district that still contains a neighbour of v, then it can move back from Q to P.", "quantifier": "all partitions, all random outcomes", "why_tests_cant": "Symmetry of a transition relation.", "anchors": ["gerrychain/proposals/proposals.py: slow_reversible_propose"]}
{"id": "C58", "title": "cut_edge_accept is a Metropolis rule on the number of cut edges", "statement": "cut_edge_accept always accepts when there is no parent or the number of cut edges does not increase, otherwise accepts iff the uniform draw is below the ratio of the cut-edge counts; it raises only if the child has a parent and no cut edges.", "quantifier": "all partitions, all draws", "why_tests_cant": "All draws and partitions.", "anchors": ["gerrychain/accept.py: cut_edge_accept, always_accept"]}
{"id": "C59", "title": "contiguous_components lists the connected components of each district", "statement": "contiguous_components returns for each district its connected components, and number_of_contiguous_parts / no_more_discontiguous compare the number of connected districts with that of the initial partition.", "quantifier": "all graphs and partitions", "why_tests_cant": "All graphs.", "anchors": ["gerrychain/constraints/contiguity.py: contiguous_components, number_of_contiguous_parts"]}
{"id": "C60", "title": "WithinPercentRangeOfBounds keeps values near the first value", "statement": "WithinPercentRangeOfBounds(f, percent), first called on p0, accepts from the second call on exactly the partitions with (1-percent/100)*f(p0) <= f(p) <= (1+percent/100)*f(p0). (Expected to fail when f(p0) is 0 or percent is 100, where a zero bound counts as unset and every partition is accepted.)", "quantifier": "all percents, all first partitions and later call sequences", "why_tests_cant": "All call sequences and values.", "anchors": ["gerrychain/constraints/bounds.py: WithinPercentRangeOfBounds"]}
{"id": "C61", "title": "A chain constrained by contiguous() stays contiguous", "statement": "If contiguous is among the constraints of a MarkovChain started on a newly created partition, every partition the chain yields has only nonempty connected districts, although contiguous() itself only examines the districts touched by the last flip.", "quantifier": "all graphs, initial plans, flip proposals, other constraints, acceptance functions and runs", "why_tests_cant": "The argument is an induction over the run: each step relies on the untouched districts having been checked at some earlier step, for every proposal and acceptance rule.", "anchors": ["gerrychain/constraints/contiguity.py:141-181", "gerrychain/chain.py:152-196"]}
{"id": "C62", "title": "A chain never ends early", "statement": "list(chain) contains total_steps states (at least one) unless an exception is raised. (Expected to fail: a StopIteration raised inside a constraint, e.g. by contiguous_bfs on an emptied district, ends the loop silently.)", "quantifier": "all chains and runs", "why_tests_cant": "The early end depends on a proposal emptying a district during a long run; it needs a statement over all callables.", "anchors": ["gerrychain/chain.py:166-196", "gerrychain/constraints/contiguity.py:244-274"]}
{"id": "C63", "title": "Region-preferring cut choice is lexicographically optimal", "statement": "With a surcharge dictionary of one to three regions, _region_preferred_max_weight_choice returns a cut whose edge crosses at least as many region boundaries as every other cut, with at least the surcharge sum of every cut crossing as many, and at least the weight of every cut crossing the same regions.", "quantifier": "all trees, node attributes, dictionaries with one to three keys, nonempty lists of cuts", "why_tests_cant": "The choice goes through a sorted power set and a first-match search; optimality over all cut lists and attribute assignments is a statement about the order.", "anchors": ["gerrychain/tree.py:446-480", "gerrychain/tree.py:483-494", "gerrychain/tree.py:501-578"]}
{"id": "C64", "title": "recursive_tree_part never accumulates population error", "statement": "If the bipartition method returns connected sets within the tolerance it is asked for, recursive_tree_part never raises PopulationBalanceError, and after every district but the last two the total deviation of the districts drawn so far is at most epsilon*pop_target.", "quantifier": "all connected graphs, populations, targets > 0, 0 <= epsilon < 1, methods, lists of parts and random outcomes", "why_tests_cant": "The correction of target and epsilon by the running debt is an invariant over arbitrarily many districts and all outcomes of the method.", "anchors": ["gerrychain/tree.py:1017-1050"]}
{"id": "C65", "title": "recom chains stay contiguous, balanced and keep their districts", "statement": "In a Markov chain whose proposal is recom or reversible_recom and whose initial plan is contiguous, every plan that is yielded is contiguous and has the same district labels; if the districts of the initial plan are within epsilon of the target population, so are the districts of every yielded plan - whatever the constraints and the acceptance function.", "quantifier": "all graphs, initial plans, constraints, acceptance functions, random outcomes and chain lengths", "why_tests_cant": "An invariant over runs of any length and all random outcomes.", "anchors": ["gerrychain/proposals/tree_proposals.py:36-267", "gerrychain/chain.py:160-198"]}
{"id": "C66", "title": "Optimization runs yield the requested number of states and restart at the best", "statement": "A short_bursts run that ends normally yields num_bursts * max(1, burst_length) states and the first state of every burst is the best state known when the burst begins; simulated_annealing and tilted_run yield max(1, num_steps) states starting with the initial partition; variable_length_short_bursts yields exactly num_steps states.", "quantifier": "all proposals, constraints, acceptance functions, scores, lengths", "why_tests_cant": "All run lengths and all chains.", "anchors": ["gerrychain/optimization/optimization.py: short_bursts, simulated_annealing, tilted_run, variable_length_short_bursts"]}
{"id": "C67", "title": "Variable length short bursts grow when stuck", "statement": "variable_length_short_bursts doubles its burst length (initially 2) each time there is no improvement over stuck_buffer bursts of the current length.", "quantifier": "all score functions, proposals, stuck_buffer >= 1", "why_tests_cant": "Needs all runs; a test only sees that the run ends with num_steps states.", "anchors": ["gerrychain/optimization/optimization.py: variable_length_short_bursts"]}
{"id": "C68", "title": "The partisan Gini score is between 0 and 1", "statement": "partisan_gini returns a number between 0 and 1, as its comment says, for every two-party election with votes in every district.", "quantifier": "all vote tables", "why_tests_cant": "Bound for all tables; the extreme tables have very unequal turnout.", "anchors": ["gerrychain/metrics/partisan.py: partisan_gini"]}
{"id": "C69", "title": "The default plan of a Grid is four contiguous quadrants", "statement": "A Grid built without an assignment has the plan of its quadrants: every node belongs to the quadrant given by its position relative to the half-way lines, all four quadrants are nonempty and connected, and their sizes are the products of the half sides.", "quantifier": "all grid sizes with both sides at least 2, with and without diagonals", "why_tests_cant": "All grid sizes, including odd ones.", "anchors": ["gerrychain/grid.py: Grid.__init__, color_quadrants"]}
{"id": "C70", "title": "as_list_of_lists lists the plan by position", "statement": "Grid.as_list_of_lists has one entry per node, and the entry at row i, column j is the district of node (i, j) as its docstring says. (Expected to fail: the nesting is transposed.)", "quantifier": "all grid sizes and plans", "why_tests_cant": "Square symmetric examples hide the transposition.", "anchors": ["gerrychain/grid.py: Grid.as_list_of_lists"]}
{"id": "C71", "title": "identify_utm_zone picks the most common zone", "statement": "identify_utm_zone returns a zone containing at least as many centroids as every other zone, a valid zone when all longitudes are below 180; it raises exactly for an empty dataframe or a centroid out of range.", "quantifier": "all lists of centroids", "why_tests_cant": "All dataframes.", "anchors": ["gerrychain/graph/geo.py: identify_utm_zone, utm_of_point"]}
{"id": "C72", "title": "num_spanning_trees counts the spanning trees of every district", "statement": "The updater num_spanning_trees maps every district to the number of spanning trees of its subgraph (0 for a disconnected district), and returns for every partition. (Expected to fail for districts with one node, for edges carrying a weight attribute and for counts too large for a float.)", "quantifier": "all graphs and all partitions", "why_tests_cant": "Kirchhoff's theorem with the unusual minor (row 0, column 1) has to hold for every district shape; tests check a handful of small graphs.", "anchors": ["gerrychain/updaters/spanning_trees.py: num_spanning_trees, _num_spanning_trees_in_district"]}
{"id": "C73", "title": "uniform_spanning_tree is uniform", "statement": "uniform_spanning_tree (Wilson's algorithm) returns every spanning tree of a connected graph with the same probability: for every number of random choices L, all spanning trees are equally likely to be returned after at most L choices, and the probability of each tends to 1 divided by the number of spanning trees.", "quantifier": "all connected graphs, all spanning trees, all numbers of random choices", "why_tests_cant": "A distribution over exponentially many trees and unbounded runs cannot be checked by sampling; a wrong loop erasure biases it only slightly.", "anchors": ["gerrychain/tree.py: uniform_spanning_tree"]}
{"id": "C74", "title": "The spanning-tree distribution is stationary for reversible_recom", "statement": "If the current plan is drawn with probability proportional to the product of the numbers of spanning trees of its districts, so is the plan after one call of reversible_recom.", "quantifier": "all graphs, all numbers of districts and population tolerances, all M at least the number of balanced edges, all plans in which touching districts have three or more nodes together", "why_tests_cant": "A statement about a probability distribution over all plans of all graphs; sampling can only estimate it for a few graphs.", "anchors": ["gerrychain/proposals/tree_proposals.py: reversible_recom", "gerrychain/tree.py: uniform_spanning_tree, _bipartition_tree_random_all, find_balanced_edge_cuts_memoization"]}
{"id": "C75", "title": "Retrying makes a step the proposal conditioned on the constraints", "statement": "For a chain whose constraints depend on the proposed plan only, the outcome of a step has the probability that a single proposal would have given that it satisfies the constraints, whatever the number of retries; after n proposals the step is still undecided with probability rho^n, where rho is the probability that a proposal violates a constraint.", "quantifier": "all proposals, acceptance functions and constraints with bounded numbers of draws, all states, all numbers of retries", "why_tests_cant": "A statement about probabilities over unbounded retry loops.", "anchors": ["gerrychain/chain.py: MarkovChain.__next__"]}
{"id": "C76", "title": "A chain of slow_reversible_propose weights plans by their number of valid moves", "statement": "In a chain with slow_reversible_propose and always_accept a step goes to each valid plan that differs by moving one node to a neighbouring district with the same probability, one over the number of these moves; so if moved nodes always have another neighbour in their district, the distribution that weights each valid plan by its number of valid moves satisfies detailed balance and is stationary (and in general the uniform distribution is not).", "quantifier": "all graphs, all plans, all constraints that depend on the plan", "why_tests_cant": "Exact probabilities over all plans of all graphs and unbounded retries.", "anchors": ["gerrychain/proposals/proposals.py: slow_reversible_propose", "gerrychain/accept.py: always_accept", "gerrychain/chain.py: MarkovChain.__next__"]}
{"id": "C77", "title": "Transition probabilities of propose_random_flip with and without cut_edge_accept", "statement": "With propose_random_flip a step moves node v to a district with probability proportional to the number of neighbours of v there; cut_edge_accept multiplies this by min(1, c/c') for the numbers c, c' of cut edges before and after. Without constraints the two directions between a pair of plans then differ exactly by the numbers of neighbours of v in the two districts: the numbers of cut edges cancel.", "quantifier": "all graphs, all plans, all constraints that depend on the plan", "why_tests_cant": "Exact probabilities over all plans of all graphs.", "anchors": ["gerrychain/proposals/proposals.py: propose_random_flip", "gerrychain/accept.py: cut_edge_accept", "gerrychain/chain.py: MarkovChain.__next__"]}
{"id": "C78", "title": "spectral_recom splits two adjacent districts into two districts", "statement": "On a contiguous plan with a cut edge spectral_recom returns a plan that differs only inside the union of two adjacent districts, keeps their two labels, leaves neither empty, and is contiguous again; without cut edges it raises IndexError.", "quantifier": "all graphs, all contiguous plans, all random draws, both Laplacians, every exact eigenvalue decomposition", "why_tests_cant": "Whether the sides of an eigenvector are nonempty and connected is a theorem of spectral graph theory (Fiedler) about all graphs; degenerate eigenvalues, whose eigenvectors the library may choose freely, are rare in tests.", "anchors": ["gerrychain/proposals/spectral_proposals.py: spectral_cut, spectral_recom"]}
{"id": "C79", "title": "Proposing a plan does not modify the graph", "statement": "spectral_recom leaves the attributes of the graph as they were, so that later proposals and updaters such as num_spanning_trees do not depend on which proposals were made before.", "quantifier": "all graphs, all plans, all random draws", "why_tests_cant": "The modification is visible only in attributes of the shared graph after the call and in the values of other functions that read them.", "anchors": ["gerrychain/proposals/spectral_proposals.py: spectral_cut", "gerrychain/updaters/spanning_trees.py: _num_spanning_trees_in_district"]}
{"id": "C80", "title": "recom can propose every balanced contiguous re-split of two adjacent districts", "statement": "For two adjacent districts of a contiguous plan, recom with the default spanning trees and cut finder returns every plan that re-splits their union into two connected districts within the population bounds, for some random draws (with positive probability), and returns no other plan.", "quantifier": "all graphs, all contiguous plans, all populations, targets and tolerances, all re-splits", "why_tests_cant": "That a plan is never proposed cannot be observed by sampling; reachability of every split is a statement about all spanning trees of all graphs.", "anchors": ["gerrychain/proposals/tree_proposals.py: recom", "gerrychain/tree.py: epsilon_tree_bipartition, bipartition_tree, find_balanced_edge_cuts_memoization, random_spanning_tree"]}
{"id": "C81", "title": "A plan from from_random_assignment is balanced, contiguous and has the requested districts", "statement": "When Partition.from_random_assignment returns, the plan assigns every node to one of the districts 0..n-1, every district is nonempty, connected and within the population tolerance, and every plan of a recom chain started there is so too. It returns for every number of districts n >= 1.", "quantifier": "all connected graphs, all populations, all n, all tolerances, all random draws, all chain lengths", "why_tests_cant": "Random plans are sampled; the guarantee is for all draws, and composing it with the chain concerns infinitely many executions.", "anchors": ["gerrychain/partition/partition.py: from_random_assignment", "gerrychain/tree.py: recursive_tree_part", "gerrychain/proposals/tree_proposals.py: recom"]}
{"id": "C82", "title": "A new partition has exactly the plan asked for", "statement": "Partition(graph, assignment) made from a dictionary, the name of a node attribute, another assignment, or a Districtr file assigns every node exactly the district given there and lists exactly the districts given there; if a node has no district the constructor raises an exception.", "quantifier": "all graphs, all dictionaries, attributes, assignments and files", "why_tests_cant": "The inputs range over all dictionaries and histories of assignments; the failing case needs an assignment that has lost a district.", "anchors": ["gerrychain/partition/assignment.py: get_assignment, from_dict", "gerrychain/partition/partition.py: _first_time, from_districtr_file"]}
{"id": "C83", "title": "Graph.join gives every matched node exactly the requested cells of its row", "statement": "Graph.join matches nodes and rows by left_index / right_index: afterwards every node with a matching label has the requested columns of the (last) row with this label as attributes and all other attributes are unchanged; it raises KeyError exactly when a column is missing (or the matching column is requested) or a labelled node has no row, and then no attribute has changed.", "quantifier": "all graphs, attributes, tables, column lists and index choices", "why_tests_cant": "Exact success condition and atomicity over all tables, including repeated labels and nodes without the attribute.", "anchors": ["gerrychain/graph/graph.py: join"]}
{"id": "C84", "title": "Graph.add_data adds exactly the requested columns", "statement": "Graph.add_data(df, columns) gives every node that has a row the cells of the requested columns and changes no other attribute; missing columns raise KeyError, repeated index labels ValueError, without effect.", "quantifier": "all graphs, attributes, tables and column lists", "why_tests_cant": "That no other attribute changes is a statement about all attribute names; the violation needs a table with a column that was not requested.", "anchors": ["gerrychain/graph/graph.py: add_data"]}
{"id": "C85", "title": "Rook and queen adjacency of polygons are what they claim", "statement": "For polygons whose pairwise intersections shapely reports correctly, neighbors(df, 'rook'/'queen') yields the graph in which two distinct polygons are joined iff their common boundary has positive length / they intersect, with shared_perim the length of the intersection; every rook edge is a queen edge; other adjacency names raise ValueError.", "quantifier": "all sets of polygons, all behaviours of the spatial index that return a superset of the intersecting polygons", "why_tests_cant": "Quantifies over all configurations of polygons and all over-approximating index answers.", "anchors": ["gerrychain/graph/adjacency.py: neighbors, neighboring_geometries, queen, rook"]}
{"id": "C86", "title": "from_geodataframe yields geometric areas and perimeters", "statement": "For polygons that tile a region, the graph of Graph.from_geodataframe has at every node the area, the boundary flag and the exterior boundary length of its polygon, and in every history of partitions the reported perimeter of a district is the length of the outline of its polygons, for rook and queen adjacency alike.", "quantifier": "all tilings, all tables, all histories of partitions", "why_tests_cant": "Combines the construction of the graph with the incremental updaters over all histories; the violation needs a table whose column names collide.", "anchors": ["gerrychain/graph/graph.py: from_geodataframe, add_boundary_perimeters", "gerrychain/updaters/compactness.py: perimeter"]}
{"id": "C87", "title": "Invalid geometries are rejected unless ignore_errors is set", "statement": "from_geodataframe raises GeometryError when a geometry is invalid before or after reprojection, unless ignore_errors is True, in which case it never raises GeometryError.", "quantifier": "all geometries, with and without reprojection", "why_tests_cant": "The faulty branch needs a geometry that becomes invalid by a reprojection.", "anchors": ["gerrychain/graph/graph.py: from_geodataframe", "gerrychain/graph/geo.py: invalid_geometries"]}
{"id": "C88", "title": "Polsby-Popper scores are exact and their norms are ordered", "statement": "In every history of partitions polsby_popper gives every district 4 pi area / perimeter^2 of that district as it is now (NaN without perimeter); for polygons that tile a region these are the area and the outline of the district; on grids with at least two rows and columns the score is positive and at most pi/4. For positive scores L_minus_1 is their harmonic mean n / L1_reciprocal, lies between the smallest and largest score and below the arithmetic mean, which is below the quadratic mean; a zero score raises ZeroDivisionError and a NaN score gives NaN.", "quantifier": "all graphs, histories, districts and score tables", "why_tests_cant": "Combines two incremental updaters over all histories; the bound pi/4 is an isoperimetric inequality for all sets of cells.", "anchors": ["gerrychain/metrics/compactness.py: polsby_popper, compute_polsby_popper", "gerrychain/constraints/compactness.py: L1_polsby_popper, L2_polsby_popper, L_minus_1_polsby_popper, L1_reciprocal_polsby_popper", "gerrychain/grid.py: Grid"]}
{"id": "C89", "title": "Self-configuring constraints judge every chain by its own initial plan", "statement": "In every chain whose constraints include a self-configuring bound such as no_worse_L_minus_1_polsby_popper, every plan is within the bound (plus epsilon) configured by the initial plan of that chain.", "quantifier": "all chains run one after another in a process, all other constraints, proposals and acceptance functions", "why_tests_cant": "The fault needs two chains in one process, since the constraint objects are module-level and keep the bound of the first chain.", "anchors": ["gerrychain/constraints/compactness.py: no_worse_L_minus_1_polsby_popper, no_worse_L1_reciprocal_polsby_popper", "gerrychain/constraints/contiguity.py: no_more_discontiguous", "gerrychain/constraints/bounds.py: SelfConfiguringLowerBound, SelfConfiguringUpperBound", "gerrychain/chain.py: MarkovChain"]}
{"id": "C90", "title": "Entropies of locality splits are exact, bounded and zero exactly for unsplit localities", "statement": "For every partition of every history, LocalitySplits' shannon_entropy is the entropy of the district of a random node given its locality (between 0 and the logarithm of the number of districts), power_entropy is the sum over localities of (sum p^(1-alpha) - 1)/q, both are 0 exactly when no locality meets two districts (power: alpha > 0), and symmetric_entropy is the sum of T*sqrt(share) over both directions, at least twice the population, with equality exactly when districts and localities coincide; for whatever names the localities have.", "quantifier": "all graphs, plans, locality attributes, populations, iteration orders of the set of localities and exponents", "why_tests_cant": "Tests evaluate a few plans with string localities; bounds and the equality case are statements about all plans, and numbered localities are not tried.", "anchors": ["gerrychain/updaters/locality_split_scores.py:276-317", "gerrychain/updaters/locality_split_scores.py:319-360", "gerrychain/updaters/locality_split_scores.py:362-412"]}
{"id": "C91", "title": "Graphs survive saving and loading", "statement": "Graph.from_json of a file written by Graph.to_json has the nodes of the saved graph in the same order, the same edges, and the same attributes of nodes and edges; geometries of nodes are removed, or become GeoJSON if requested.", "quantifier": "all graphs, labels of nodes, names and values of attributes", "why_tests_cant": "Tests save a few graphs with integer labels and plain numbers; labels that are tuples, attributes called id, numbered columns and numpy values other than integers are not tried, and values are lost without an exception.", "anchors": ["gerrychain/graph/graph.py:29-48", "gerrychain/graph/graph.py:77-114", "gerrychain/graph/graph.py:460-505"]}
{"id": "C92", "title": "What a frozen graph and the view of subgraphs remember agrees with the graph", "statement": "neighbors, degree, lookup, node_indices and iteration of the FrozenGraph of a partition, and partition.subgraphs[part], always return what the graph and the parts contain at the time of the call; in particular the graph of a partition can be used to make another random partition.", "quantifier": "all graphs, attributes, sequences of calls and assignments of attributes, bipartition methods, numbers of districts", "why_tests_cant": "Caches go stale only in particular sequences of calls; tests use a fresh graph each time.", "anchors": ["gerrychain/graph/graph.py:508-580", "gerrychain/partition/subgraphs.py:36-56", "gerrychain/tree.py:929-955", "gerrychain/tree.py:1007-1085", "gerrychain/partition/partition.py:67-135"]}
{"id": "C93", "title": "slow_reversible_propose_bi is reversible for every number of districts", "statement": "In a chain with slow_reversible_propose_bi, always_accept and constraints on the plan, from every plan in which each boundary node has a neighbour in its own district, an allowed move of node v has probability proportional to 1/(number of other districts next to v); for two districts all allowed moves are equally likely. If moves can be undone, the chain satisfies detailed balance, and has a stationary distribution, with plans weighted by the sum of these numbers over their allowed moves. Boundary nodes without a neighbour in their own district make the step raise ValueError when chosen.", "quantifier": "all graphs, plans, numbers of districts, constraints and numbers of retries", "why_tests_cant": "Probabilities of steps of a chain with retries; sampling shows approximate frequencies on a few graphs only.", "anchors": ["gerrychain/proposals/proposals.py:98-130", "gerrychain/chain.py:165-205"]}
{"id": "C94", "title": "simulated annealing asks its schedule for the time of the chain", "statement": "In simulated_annealing the temperature of the i-th step is beta_function(i). The code instead passes the updater 'step' of the proposed plan, which counts accepted moves: in every complete run the i-th call of the schedule has the argument (time of the initial plan) + 1 + (number of moves made before). The clock is right exactly while every proposal is accepted; during rejections it stands still, so that a run may stay in a cold phase for ever although its schedule has hot phases.", "quantifier": "all runs: proposals, constraints, scores, schedules, random draws, numbers of steps and time of the initial plan", "why_tests_cant": "The argument of the schedule depends on the whole history of acceptances and on which updater values were cached before the chain erased the parents.", "anchors": ["gerrychain/optimization/optimization.py:76-80", "gerrychain/optimization/optimization.py:155-184", "gerrychain/optimization/optimization.py:427-473", "gerrychain/chain.py:184-196"]}
{"id": "C95", "title": "the transition probabilities of recom", "statement": "For recom with uniform spanning trees and default options, the probability of moving from a plan to another one that differs in two districts each (s, t replaced by A, B) is |edges between s and t| / |cut edges|, times the sum over the spanning trees of the merged districts with exactly one edge between A and B of 1 / (number of balanced edges of the tree), divided by the number of spanning trees with a balanced edge, times 1 - (1 - share of such trees)^ceil(max_attempts / node_repeats); every other move has probability zero. If every node has more people than the width of the allowed range of populations, no tree has two balanced edges, and recom is reversible with respect to (number of cut edges) * (product of the numbers of spanning trees of the districts). With two districts the next plan does not depend on the present one. The stationary distribution is not the spanning-tree distribution of reversible_recom.", "quantifier": "all graphs, contiguous plans, populations, tolerances, node_repeats, max_attempts; random numbers idealised as exact uniform draws", "why_tests_cant": "A distribution over all spanning trees of all pairs of districts; tests see samples of single runs.", "anchors": ["gerrychain/proposals/tree_proposals.py:36-146", "gerrychain/tree.py:581-718", "gerrychain/tree.py:900-980"]}
{"id": "C96", "title": "whose votes an election reports", "statement": "An Election reports, for every partition, the votes of the graph that the partition lies on, summed by district. What the code does: DataTally reads its column from the graph of the first partition without parent that it is evaluated on, and keeps what it read. In every history of partitions on any graphs, flips, lookups, changes of attributes and erased parents, with elections registered under their alias, every result is the result of the remembered votes, and what is remembered never changes. Hence results are right if all graphs agree on the columns and nobody changes them; on a second graph with other votes the election silently reports the votes of the first; nodes unknown to the first graph raise KeyError. An election registered only under another name than its alias fails on every child; if the alias names another election, children report the other election's votes plus the votes of the nodes moved.", "quantifier": "all graphs, attributes, elections, dictionaries of updaters, histories of operations", "why_tests_cant": "The fault needs the same election object on two graphs, or a change of votes, and then returns plausible numbers; the tests make a new election for each graph.", "anchors": ["gerrychain/updaters/election.py:68-167", "gerrychain/updaters/tally.py:24-66", "gerrychain/updaters/flows.py:86-104"]}
{"id": "C97", "title": "which tree random_spanning_tree returns, and how often", "statement": "random_spanning_tree returns a spanning tree of least total weight for the weights it drew (random number plus region surcharges), whatever the random numbers are; the surcharges of its edges exceed the least possible sum by less than one per edge. Without surcharges the probability of a tree is the number of orders of the edges for which it is the lightest tree, divided by the number of all orders, with an error of at most m(m-1)/(2N), the chance that two of the m numbers drawn (out of N equally likely ones, N = 2^53 in python) are equal. Every spanning tree has positive probability, the shares add up to one, and the distribution is not uniform: on a square with a diagonal a tree with the diagonal has 2/15, one without 7/60.", "quantifier": "all connected graphs, attributes, surcharges, random numbers, numbers of values of random.random()", "why_tests_cant": "The law of a random tree is a statement about all draws; an estimate from samples cannot tell 2/15 from 1/8 without thousands of runs, and a non-minimal tree looks like any other tree.", "anchors": ["gerrychain/tree.py:60-94"]}
{"id": "C98", "title": "the transition probabilities of recom with its default arguments, and that it is not reversible", "statement": "With random_spanning_tree, the default, the probability that recom moves from a plan to another one that differs in two districts is the share of the edges between the two districts among the cut edges, times the sum over the spanning trees of the merged districts with one edge between the new districts of the probability of the tree over the number of its balanced edges, divided by the probability that a tree has a balanced edge, times the probability that the attempts see such a tree. The probability of a tree is the one of C97. All other moves have probability zero, and with two districts the next plan does not depend on the present one. In contrast to uniform spanning trees (C95), the chain is not reversible: on a graph with seven nodes and three districts no weights of the plans satisfy detailed balance.", "quantifier": "all graphs, contiguous plans, populations, tolerances, numbers of attempts and repeats, random numbers", "why_tests_cant": "Transition probabilities are averages over all random numbers, and the products around the cycle of plans differ by two per cent only.", "anchors": ["gerrychain/proposals/tree_proposals.py:36-146", "gerrychain/tree.py:60-94", "gerrychain/tree.py:581-718"]}
{"id": "C99", "title": "what an optimizer reports while its runs are going on", "statement": "Both during and after an optimization run best_part is the last of the best among the initial plan and the plans the run has handed out, and best_score is its score; starting a run resets them. Proved for a run that is advanced alone, for all plans but the one handed out last, and in general for programs that advance several runs of one optimizer in turn: every next counts the plan that this run had handed out before, and the first next of any run resets the count. The documented claim fails for the plan handed out last, for runs advanced in turn, and after a run whose first score raises.", "quantifier": "all optimizers, scores, proposals, constraints, acceptance functions and all sequences of calls, next and close", "why_tests_cant": "All interleavings of any number of runs, stopped at any point.", "anchors": ["gerrychain/optimization/optimization.py: SingleMetricOptimizer, best_part, best_score, short_bursts, simulated_annealing, variable_length_short_bursts, tilted_run"]}
{"id": "C100", "title": "which plans recursive_tree_part can return", "statement": "A plan is a possible result of recursive_tree_part with its default method (with positive probability) if and only if, in the order of the labels: every node has a label, every district is connected and within the tolerance, the nodes of the districts that are still to be cut off are connected at every stage, the deviations of the districts cut off so far never add up to more than the tolerance of one district, and the last district but one has at least two nodes. It is not true that every balanced contiguous plan is possible for some order of the labels: a line of seven districts, all balanced, is never returned.", "quantifier": "all graphs, populations, targets, tolerances below one, label lists of any length, repeats, attempt bounds; for the only-if part and the counterexample all generators and spanning tree functions", "why_tests_cant": "Which plans can never be drawn is a statement about all random draws; a test sees only plans that were drawn.", "anchors": ["gerrychain/tree.py: recursive_tree_part, bipartition_tree, find_balanced_edge_cuts_memoization"]}
{"id": "C101", "title": "a loop over an optimizer's generator is the whole run", "statement": "Looping over the generator of short_bursts, tilted_short_bursts, simulated_annealing, tilted_run or variable_length_short_bursts hands out the same states, ends the same way, and leaves the same best_part, best_score and world as the description of the whole run, whenever one of the two comes to an end; when the start raises, the loop raises the same exception. Hence after a loop that ends regularly best_part and best_score are the last of the best among the initial plan and everything handed to the loop.", "quantifier": "all optimizers, scores, proposals, constraints, acceptance functions, loop bodies (also raising ones), lengths and numbers of steps", "why_tests_cant": "Equivalence of two descriptions of all runs of any length, including exceptions at any point in the proposal, the score, the constraints or the loop body.", "anchors": ["gerrychain/optimization/optimization.py: short_bursts, simulated_annealing, tilted_short_bursts, variable_length_short_bursts, tilted_run"]}
{"id": "C102", "title": "the probability of every plan of recursive_tree_part", "statement": "The probability that recursive_tree_part returns a given plan is a product with one factor for each cut, in the order of the labels. The factor is the sum, over the spanning trees of the nodes that are left with exactly one edge between the district and the rest, of the probability of the tree times the share of its inner nodes from which the search reports the district, over the number of edges of the tree that can be cut, divided by the probability of a tree with such an edge, times the probability that the attempts see such a tree. The first of the last two labels goes to the side with the root, that is with the share of the inner nodes in this side; the other labels go to the side without the root, or to the only side with the right population. With two labels the probability of the unlabelled pair of districts is the one with which recom proposes it. The labels are not exchangeable: five nodes in a row are split into {0,1} and {2,3,4} with the first label on {0,1} with probability 1/6 and with the first label on {2,3,4} with probability 1/3.", "quantifier": "all graphs, populations, targets, tolerances below one, label lists of any length, plans, repeats, attempt bounds, spanning tree laws, in particular uniform_spanning_tree (ideal) and random_spanning_tree", "why_tests_cant": "The probability of a result is a statement about all sequences of random numbers; a test sees frequencies of a few runs on one graph.", "anchors": ["gerrychain/tree.py: recursive_tree_part, bipartition_tree, find_balanced_edge_cuts_memoization, random_spanning_tree, uniform_spanning_tree"]}
{"id": "C103", "title": "what the plans of a run of reversible_recom are distributed like", "statement": "The plans in list(chain) of a MarkovChain with reversible_recom, always_accept and constraints that let every plan pass are a path of a Markov chain: a list of plans is seen with the product of the probabilities of its moves, whatever the labels are. The probability that the last plan of a run of n moves is Q converges geometrically to the share of Q in the numbers of spanning forests of the plans that can be reached from the initial one by changing two districts at a time. For every score the probability that the average over the run differs by e or more from the weighted mean over these plans is at most C/(n e^2). A run never leaves these plans, and at least one of k moves on average changes nothing. With two districts the law is known exactly: with probability (1-d)^n the last plan is still the initial one, otherwise it has the limiting distribution, where d is the sum of the products of the numbers of spanning trees of the two districts over all plans, divided by 2 M times the number of spanning trees of the graph. Not every plan can be reached: on a ring of six nodes with three districts of two nodes there is another plan, but the chain never moves.", "quantifier": "all connected graphs, populations, targets, tolerances, numbers of districts, bounds M that are never exceeded, initial plans, run lengths, scores, exact probabilities over the generator", "why_tests_cant": "Convergence is a statement about runs of every length and about exact probabilities; a test sees the frequencies of a few runs on one graph and cannot tell a slow chain from one that converges to something else.", "anchors": ["gerrychain/proposals/tree_proposals.py: reversible_recom", "gerrychain/chain.py: MarkovChain.__next__, __iter__", "gerrychain/tree.py: bipartition_tree_random, uniform_spanning_tree"]}
{"id": "C104", "title": "what the plans of a run of flips are distributed like", "statement": "The plans in list(chain) of a MarkovChain with slow_reversible_propose (or slow_reversible_propose_bi), always_accept and any constraints that depend on the plan only are a path of a Markov chain that goes to each plan one allowed flip away with equal probability (with _bi: in inverse proportion to the number of districts next to the node): if each step makes at most f proposals, a list of plans is seen with a probability between (1-c^f)^n times and once the product of the probabilities of its moves, with c<1. The run is finished with probability at least (1-c^f)^n. For every score, however small e and d are, a run that is long enough and makes enough proposals is finished with an average of the score within e of its limit with probability at least 1-d; the limit is the mean over the plans that can be reached, weighted with their number of allowed flips (with _bi: with the sum over the allowed flips of one divided by the number of districts next to the node). With two districts the plan at index i of a run has a size of each district of the parity of the initial size plus i, so the law of the last plan has no limit.", "quantifier": "all graphs, assignments, constraints that decide by the plan, initial plans, run lengths, bounds on the proposals of a step, scores, exact probabilities over the generator", "why_tests_cant": "Limits and exact probabilities of runs of every length cannot be observed; a test cannot tell the weighted mean that the chain samples from the uniform mean over plans on more than a tiny graph, and never sees that every second plan is impossible.", "anchors": ["gerrychain/proposals/proposals.py: slow_reversible_propose, slow_reversible_propose_bi", "gerrychain/chain.py: MarkovChain.__next__, __iter__", "gerrychain/accept.py: always_accept"]}
{"id": "C105", "title": "what the plans of a run of recom are distributed like", "statement": "The plans in list(chain) of a MarkovChain with recom, always_accept and any constraints that depend on the districts only are a path of a Markov chain on plans: a cut edge is drawn uniformly, the two districts at its ends are split by the tree law, given that a balanced tree is found and the plan is allowed. With at most m attempts (r with each tree) and at most f proposals in a step a list of plans is seen with a probability between R^n times and once the product of the probabilities of its moves, where R=(1-c^ceil(m/r))^f*(1-d^f) with c,d<1; the run is finished with probability at least R^n and never shows a plan that cannot be reached through allowed exchanges of two districts. On the plans within reach there is exactly one stationary law, and it is positive. The average of every score over a run converges to its mean under that law and the law of the last plan converges to it exponentially, from every initial plan within reach, with the default random_spanning_tree and with uniform_spanning_tree. With two districts the plans are independent draws. With uniform trees and a tolerance smaller than every node the stationary weight of a plan is the number of its cut edges times the product of the numbers of spanning trees of its districts (times the probability that a proposal from it is allowed).", "quantifier": "all graphs, populations, tolerances, numbers of districts, constraints that decide by the districts, initial plans, run lengths, bounds on attempts and proposals, scores, tree laws, exact probabilities over the generator", "why_tests_cant": "Limits and exact probabilities of runs of every length cannot be observed; the stationary law of recom is not known in closed form in general, so a test has nothing to compare an ensemble with, and plans that are out of reach are never missed.", "anchors": ["gerrychain/proposals/tree_proposals.py: recom", "gerrychain/tree.py: bipartition_tree, _max_weight_choice, random_spanning_tree, uniform_spanning_tree", "gerrychain/chain.py: MarkovChain.__next__, __iter__", "gerrychain/accept.py: always_accept"]}
{"id": "C106", "title": "a chain of partition objects makes the moves of a chain of plans", "statement": "For every history of partition objects and every object in it with fewer remaining ancestors than the recursion limit allows, MarkovChain(proposal, constraints, accept, object, n) followed by list(chain) shows exactly the plans, or the exception, and consumes exactly the random numbers of the chain whose states are plans without caches, parents or updaters. This holds for propose_random_flip, slow_reversible_propose and slow_reversible_propose_bi with constraints on the plan or on the number of cut edges, and for recom and reversible_recom from contiguous plans also with contiguous and with population bounds read from a Tally, with always_accept or cut_edge_accept. In particular caches never change a run, a run of any length stays within the recursion limit, and the laws of whole runs (C103, C104, C105) hold for the objects: ensemble averages of reversible_recom and recom with [contiguous, within_percent_of_ideal_population] converge to the stated means.", "quantifier": "all graphs, columns, sets of updaters, histories of objects, initial objects, recursion limits of at least 2, constraints of the stated kinds, run lengths, tapes of random numbers", "why_tests_cant": "A stale cache, a parent that is not erased or a look-up that recurses too deep shows only for some histories and lengths; a test compares single runs and cannot see that the distribution of all runs is unchanged.", "anchors": ["gerrychain/chain.py: MarkovChain", "gerrychain/partition/partition.py: flip, __getitem__, parent", "gerrychain/updaters/flows.py", "gerrychain/updaters/tally.py: Tally", "gerrychain/updaters/cut_edges.py", "gerrychain/constraints/contiguity.py: contiguous", "gerrychain/constraints/bounds.py: Bounds", "gerrychain/constraints/validity.py: Validator, within_percent_of_ideal_population", "gerrychain/accept.py: cut_edge_accept", "gerrychain/proposals/proposals.py", "gerrychain/proposals/tree_proposals.py: recom, reversible_recom"]}
{"id": "C107", "title": "contiguity and population constraints on chains of flipped partition objects", "statement": "For every history of partition objects, a chain of propose_random_flip, slow_reversible_propose or slow_reversible_propose_bi from an object with a contiguous plan shows exactly the plans (or the exception) and consumes exactly the random numbers of the chain of plans, for every list of constraints in which contiguous or single_flip_contiguous comes before the bounds on tallies. The local test of single_flip_contiguous answers as the test of all districts, whatever neighbour it starts its search from; contiguous raises on a proposal that empties a district and single_flip_contiguous refuses it; the cached tally that is read afterwards is the population of the proposed plan. With [single_flip_contiguous, within_percent_of_ideal_population] the ensemble averages of slow_reversible_propose and of slow_reversible_propose_bi over runs of objects converge, with the rate of C104, to the means weighted with the number (or the inverse number of choices) of allowed moves over the plans that can be reached through contiguous plans within the bounds.", "quantifier": "all graphs, columns, sets of updaters, histories of objects, initial objects, recursion limits of at least 2, orders of adjacency lists and parts, choices of random.choice in the constraint, run lengths, tapes of random numbers, scores", "why_tests_cant": "The local test is only right because the parent was contiguous, the cached tally only because no district has been emptied, and both only because every earlier step kept these facts: an induction over the run. A test sees single runs, not that the distribution over all runs has the stated limit.", "anchors": ["gerrychain/chain.py: MarkovChain", "gerrychain/constraints/contiguity.py: single_flip_contiguous, contiguous, are_reachable", "gerrychain/constraints/bounds.py: Bounds", "gerrychain/constraints/validity.py: Validator, within_percent_of_ideal_population", "gerrychain/updaters/tally.py: Tally", "gerrychain/partition/partition.py: flip, __getitem__", "gerrychain/proposals/proposals.py"]}
{"id": "C108", "title": "under which names tallies are right", "statement": "A Tally computed on a child asks the parent for its alias, not for the name it was registered under. Every look-up of every registered tally in every history of partition objects (on objects with fewer remaining ancestors than the recursion limit, none of which has an empty district) returns the sums over the districts exactly if under the alias of every registered tally there is a tally with the same value at every node. In general the value on a child is the parent's value under the alias plus the change of the tally's own columns, so with another tally under the alias it is off by the difference of the two tallies on the parent's district; with nothing under the alias every look-up on an object with a parent is a KeyError, although the look-up on the initial object succeeds.", "quantifier": "all graphs, numeric columns, sets of registered names, aliases and columns, histories of creating, flipping, looking up and dropping parents, objects, recursion limits", "why_tests_cant": "A registration under the wrong name gives the right answer on the initial partition and fails only on children, and there only where the two tallies differ; a test with one registry and one plan cannot show which registries are safe.", "anchors": ["gerrychain/updaters/tally.py: Tally.__init__, Tally.__call__, Tally._update_tally, Tally._initialize_tally", "gerrychain/partition/partition.py: __getitem__, flip"]}
{"id": "C109", "title": "when short bursts find the best plan", "statement": "short_bursts with always_accept and slow_reversible_propose (or slow_reversible_propose_bi) under constraints W: the best plan after each burst is a Markov chain, a burst of burst_length = n+1 plans being a path of n steps of the proposal's chain that leads to the last of the best plans on it. With at most f proposals in each step the probability that the run ends with a best plan in a given set lies between (1-c^f)^(n*num_bursts) times and once the probability of this chain. With enough bursts an optimal score is found with a probability as close to 1 as wanted if and only if from every best plan that bursts can get to they can find an optimal one. A burst_length of at least the number of plans that can be reached is enough. If all other plans within burst_length - 1 allowed moves of the initial plan are worse, no number of bursts ever finds another plan.", "quantifier": "all graphs, constraints on plans, initial plans, scores with values in a linear order, minimization and maximization, burst lengths, numbers of bursts, bounds on the number of proposals", "why_tests_cant": "Whether a run finds the optimum is a random event and depends on the burst length in relation to the landscape of the score; a test can see single runs only, neither the probability nor that it tends to 1 or stays 0.", "anchors": ["gerrychain/optimization/optimization.py: SingleMetricOptimizer.short_bursts, _is_improvement", "gerrychain/chain.py: MarkovChain.__next__", "gerrychain/proposals/proposals.py: slow_reversible_propose, slow_reversible_propose_bi", "gerrychain/accept.py: always_accept"]}
{"id": "C110", "title": "when short bursts of recom find the best plan", "statement": "short_bursts with always_accept and recom under constraints W: the best plan after each burst is a Markov chain on the sets of districts, a burst of burst_length = n+1 plans being a path of n steps of the chain of recom that leads to the last of the best plans on it. The probability that the run ends with a best plan in a given set is at most that of this chain, and the bounds on attempts and proposals take away no more than a part that goes to zero exponentially. With enough bursts, proposals and attempts an optimal score is found with a probability as close to 1 as wanted if and only if from every best plan that bursts can get to they can find an optimal one. A burst_length of at least the number of plans that can be reached is enough. With two districts every burst_length from two on is: num_bursts bursts find the optimum with probability 1-(1-p)^(n*num_bursts), p > 0 the probability that a draw of an allowed plan is optimal. If all other plans within a burst of the initial plan are worse, no number of bursts ever finds another plan.", "quantifier": "all connected graphs, populations, tolerances, laws of the spanning tree that give every tree a positive probability, constraints on plans, initial plans, scores of the districts with values in a linear order, minimization and maximization, burst lengths, numbers of bursts, bounds on attempts and proposals", "why_tests_cant": "Whether a run finds the optimum is a random event and depends on the burst length in relation to the landscape of the score; a test can see single runs only, neither the probability nor that it tends to 1 or stays 0.", "anchors": ["gerrychain/optimization/optimization.py: SingleMetricOptimizer.short_bursts, _is_improvement", "gerrychain/chain.py: MarkovChain.__next__", "gerrychain/proposals/tree_proposals.py: recom", "gerrychain/accept.py: always_accept"]}
{"id": "C111", "title": "what the warnings say when a graph is made", "statement": "A run of Graph.from_geodataframe that returns a graph warns for overlaps exactly if two polygons overlap in an area and names exactly the overlapping pairs, each once; warns for islands exactly if a polygon has no neighbour in the graph and names exactly these, so never for a connected graph of two or more polygons; warns for a missing coordinate reference system exactly if there is none; and warns about every missing value that it puts on the graph. Graph.join gives no node a missing value without a warning about the column and warns about no column it does not add. Raising warnings does not change the result.", "quantifier": "all collections of polygons, tables, adjacency rules, choices of columns, with and without reprojection", "why_tests_cant": "The set of warnings is an exact statement about every polygon and every cell of the table; a test that looks for a warning cannot see that none is missing.", "anchors": ["gerrychain/graph/adjacency.py: warn_for_overlaps", "gerrychain/graph/graph.py: islands, warn_for_islands, issue_warnings, check_dataframe, add_data, join, from_geodataframe"]}
{"id": "C112", "title": "the views of an assignment, and changing it by hand", "statement": "For an assignment whose two views agree, keys, values, items, iteration, in, [], len, == and to_series describe the same function: every assigned node once with its district. Rebuilding the assignment from to_dict() or to_series() gives an equal assignment whose districts are the non-empty ones. After update_parts(new_parts) the views agree if and only if the new districts are disjoint, cover the nodes of the changed districts and take no node from an unchanged one. Using the dictionary that to_dict() returns does not change the assignment.", "quantifier": "all assignments with agreeing views, all nodes, all dictionaries of new parts", "why_tests_cant": "An exact condition over all dictionaries of new parts, and an aliasing that only shows when the returned dictionary is written to.", "anchors": ["gerrychain/partition/assignment.py: Assignment.__iter__, __getitem__, items, keys, values, to_series, to_dict, update_parts, from_dict"]}
{"id": "C113", "title": "when tilted runs find the best plan", "statement": "A tilted run moves like the Markov chain in which an allowed plan is proposed and is taken if it is no worse and otherwise with probability p: up to the chance that a step needs more proposals than allowed, the probability that tilted_run(n+1, p) or tilted_short_bursts(n+1, num, p) ends with a best plan in any given set is that of this chain. Hence tilted_run finds an optimal score with a probability as close to 1 as wanted, given enough steps and proposals, if and only if from every plan it can get to an optimal one is in reach by moves that are no worse (or by any allowed moves if p > 0); with p > 0 it always does, whatever the score, and so do bursts that are as long as there are plans.", "quantifier": "all graphs, initial plans, validity predicates, scores, directions, probabilities p in [0,1], lengths and numbers of bursts; for slow_reversible_propose, slow_reversible_propose_bi and recom", "why_tests_cant": "A statement about limits of probabilities over all score landscapes; a run that has not found the optimum yet shows nothing.", "anchors": ["gerrychain/optimization/optimization.py: SingleMetricOptimizer._tilted_acceptance_function, tilted_run, tilted_short_bursts", "gerrychain/chain.py: MarkovChain.__next__", "gerrychain/proposals/proposals.py: slow_reversible_propose, slow_reversible_propose_bi", "gerrychain/proposals/tree_proposals.py: recom"]}
{"id": "C114", "title": "what long runs with cut_edge_accept sample", "statement": "For the two reversible proposals with cut_edge_accept, the list of plans of a run has, up to the chance that a step needs more proposals than allowed, the law of the Markov chain that makes an allowed move with the probability of the proposal among the allowed moves times min(1, cut edges before / cut edges after) and otherwise repeats the plan. Ensemble averages converge in probability to the mean over the plans that can be reached, weighted with the number of allowed moves divided by the number of cut edges (for the _bi proposal: the sum over the allowed moves of one divided by the number of districts to which the node could be moved, divided by the number of cut edges); and if somewhere an allowed move increases the number of cut edges, the law of the last plan of a run converges to these weights.", "quantifier": "all graphs, initial plans, validity predicates under which each allowed move can be undone, scores, run lengths and tolerances", "why_tests_cant": "A limit statement about probabilities; a finite simulation cannot separate the stated weights from nearby ones.", "anchors": ["gerrychain/accept.py: cut_edge_accept", "gerrychain/chain.py: MarkovChain.__next__", "gerrychain/proposals/proposals.py: slow_reversible_propose, slow_reversible_propose_bi"]}
{"id": "C115", "title": "what long runs with propose_random_flip sample", "statement": "For propose_random_flip, with always_accept or cut_edge_accept, the list of plans of a run has, up to the chance that a step needs more proposals than allowed, the law of the Markov chain in which an allowed move is likely in proportion to the number of neighbours of the node in its new district (times the acceptance probability). There is exactly one set of weights that this chain keeps, all positive, and ensemble averages converge to the mean for these weights; with cut_edge_accept so does the law of the last plan if somewhere an allowed move increases the number of cut edges. The weights are the numbers of allowed ordered pairs of ends of cut edges if every allowed move takes a node to a district in which it has as many neighbours as in the one it leaves, but in general they are neither equal nor in proportion to the numbers of moves.", "quantifier": "all graphs, initial plans, validity predicates under which each allowed move can be undone, scores, run lengths and tolerances", "why_tests_cant": "A limit statement about probabilities, with a stationary distribution that in general has no closed form.", "anchors": ["gerrychain/proposals/proposals.py: propose_random_flip", "gerrychain/accept.py: always_accept, cut_edge_accept", "gerrychain/chain.py: MarkovChain.__next__"]}
{"id": "C116", "title": "the coordinate reference system a graph records", "statement": "When a graph is made of polygons, the coordinate reference system that it records is the one in which its areas and perimeters were computed: the UTM zone in which most polygons lie with reproject=True, otherwise that of the table, or crs_override if the table has none. The table of the caller is left as it was, and Graph.from_file gives the same graph as Graph.from_geodataframe on the table in the file.", "quantifier": "all tables with and without a coordinate reference system, all polygons in all coordinate reference systems, adjacency rules, choices of columns, flags and overrides", "why_tests_cant": "The relation between the recorded system and the numbers must hold for every table and combination of flags; the tests compare a few of them.", "anchors": ["gerrychain/graph/graph.py: Graph.from_geodataframe, Graph.from_file", "gerrychain/graph/geo.py: reprojected, identify_utm_zone"]}
{"id": "C117", "title": "reading and copying a partition", "statement": "However a partition has been read before, partition[name] and partition.name are the value of the updater of that name, hasattr(partition, name) tells whether there is one, dict(partition) has exactly the values of all updaters, name in partition tells whether there is one, and copying or pickling a partition or a frozen graph gives an equal one.", "quantifier": "all partitions, updaters, names, histories of readings, and recursion limits", "why_tests_cant": "The statement is about every name, including those that clash with slots and methods, after every history of readings, and for every recursion limit.", "anchors": ["gerrychain/partition/partition.py: Partition.__getitem__, __getattr__, keys, parts, __slots__", "gerrychain/graph/graph.py: FrozenGraph.__getattribute__"]}
{"id": "C118", "title": "when annealed runs find the best plan", "statement": "simulated_annealing with a schedule that repeats itself, such as jumpcycle, linearcycle and linear_jumpcycle, follows the Markov chain of plans and number of moves in which a proposed plan is taken with the probability exp(-beta*magnitude*delta), rounded to the random numbers, with beta taken at the number of moves made and refused moves not counted; and with enough steps it finds an optimal plan with a probability as close to 1 as wanted, whatever the score and the schedule, as long as math.exp does not overflow. This holds for slow_reversible_propose, slow_reversible_propose_bi and recom.", "quantifier": "all graphs, start plans, constraints, scores, periodic schedules, magnitudes, numbers of steps and random tapes", "why_tests_cant": "The probability is over all tapes and the statement is about a limit over the number of steps; a test sees single runs.", "anchors": ["gerrychain/optimization/optimization.py: simulated_annealing, _simulated_annealing_acceptance_function, jumpcycle_beta_function, linearcycle_beta_function, linear_jumpcycle_beta_function", "gerrychain/chain.py: MarkovChain.__next__", "gerrychain/proposals/proposals.py: slow_reversible_propose, slow_reversible_propose_bi", "gerrychain/proposals/tree_proposals.py: recom"]}
{"id": "C119", "title": "under which names county_splits is right", "statement": "All look-ups of all county_splits updaters in all histories give the counties of their field, with their nodes and districts and whether they are split, exactly if under the partition_name of each one there is registered a county_splits with the same counties; this holds when each one is registered under its own partition_name. If there is a county_splits of another field under the name, then the children report the counties of that other field and refuse_new_splits judges by those; if there is nothing under the name, every look-up on an object with a parent is a KeyError.", "quantifier": "all graphs, registered names and fields, histories of creating, flipping, looking up and cutting off parents", "why_tests_cant": "The condition is on all pairs of registered updaters and all histories; the tests register one county_splits under its own name.", "anchors": ["gerrychain/updaters/county_splits.py: county_splits, compute_county_splits", "gerrychain/partition/partition.py: Partition.__getitem__", "gerrychain/constraints/validity.py: refuse_new_splits"]}
{"id": "C120", "title": "UTM coordinates are mirrored at the axes of a zone, and can be converted back", "statement": "In every zone from_latlon and to_latlon mirror points at the central meridian (eastings add up to 1,000,000, longitudes are opposite) and at the equator (northings add up to 10,000,000, latitudes are opposite); the easting tells the side of the central meridian, and the northing grows with the latitude. to_latlon accepts what from_latlon returns, with all checks on, and takes points of the equator back to the equator.", "quantifier": "all latitudes, longitudes, zones and forced arguments; all eastings and northings", "why_tests_cant": "The statement is about a continuum of points and compares different points; the one use of the module is for the zone number only.", "anchors": ["gerrychain/vendor/utm/conversion.py: from_latlon, to_latlon, in_bounds, mixed_signs, negative, check_valid_zone"]}
{"id": "C121", "title": "variable length short bursts get out of local optima", "statement": "With enough steps variable_length_short_bursts with always_accept finds an optimal plan with a probability as close to 1 as wanted, from every initial plan, for every stuck_buffer. Violated for stuck_buffer >= 1: the run is that of short_bursts with burst_length 2, and finds an optimal plan with probability near 1 exactly if single allowed moves to plans that are not worse lead to one from every plan they lead to. With stuck_buffer <= 0 the property holds.", "quantifier": "all graphs, constraints on the plan, scores of the plan, initial plans, stuck_buffer, numbers of steps; the equality of the runs for all optimizers, proposals and acceptance functions", "why_tests_cant": "The claim is about the limit of probabilities over all random choices; the tests only see that runs end.", "anchors": ["gerrychain/optimization/optimization.py: variable_length_short_bursts, short_bursts", "gerrychain/proposals/proposals.py: slow_reversible_propose, slow_reversible_propose_bi", "gerrychain/chain.py: MarkovChain.__next__"]}
{"id": "C122", "title": "when variable length short bursts of recom find the best plan", "statement": "With stuck_buffer >= 1, variable_length_short_bursts with recom and always_accept finds an optimal plan with a probability as close to 1 as wanted, given enough steps, exactly if from every plan that single steps of recom without a loss of score can get to from the initial plan such steps can get to an optimal plan within reach; a plan all of whose neighbours are worse is never left. With two districts the best plan is always found, with every stuck_buffer. With stuck_buffer <= 0 it is found from every initial plan, for every number of districts.", "quantifier": "all graphs, populations, targets, tolerances and constraints on the plan in the setting of C105, all laws of spanning trees in which every tree has a chance, all scores of the plan, initial plans, values of stuck_buffer and numbers of steps", "why_tests_cant": "The claim is about the limit of probabilities over all random choices of trees, cuts and pairs of districts; a test sees single runs, and a run that has not found the best plan yet looks the same as one that never will.", "anchors": ["gerrychain/optimization/optimization.py: variable_length_short_bursts", "gerrychain/proposals/tree_proposals.py: recom", "gerrychain/tree.py: bipartition_tree", "gerrychain/chain.py: MarkovChain.__next__"]}
{"id": "C123", "title": "what propose_any_node_flip proposes, and how often", "statement": "propose_any_node_flip returns a new child of the partition in which one node of the graph is in one of its districts and all other nodes are where they were, with the same district labels; it raises only on a graph without nodes. With n nodes and k districts it proposes the plan itself with probability 1/k, every plan that differs in one node with probability 1/(nk) and no other plan. So it is symmetric, also when a district becomes empty, and every plan can be reached from every other one with the same labels, in as many steps as there are nodes to move.", "quantifier": "all graphs, partitions and histories of partition objects, all random outcomes, all pairs of plans with the same district labels", "why_tests_cant": "Exact probabilities and symmetry of a transition law for all graphs and plans; a test sees frequencies of single runs.", "anchors": ["gerrychain/proposals/proposals.py: propose_any_node_flip", "gerrychain/partition/partition.py: Partition.flip"]}
{"id": "C124", "title": "what long runs of propose_any_node_flip sample", "statement": "In a chain with propose_any_node_flip, always_accept and constraints on the plan, the next plan is m' with a probability in proportion to the number of pairs of a node and a district label that turn the current plan into m', if m' is valid. In a long run a plan that can be reached through valid plans counts in proportion to the number of such pairs that give a valid plan, not equally: this holds for the ensemble averages of every score and for the last plan of the run, as the chain is never periodic. Without constraints the plans that can be reached are all plans with the same labels, and all have the same share.", "quantifier": "all graphs with at least one node, initial plans, constraints on the plan, scores, tolerances and probabilities of error", "why_tests_cant": "The claim is about limits of probabilities over all runs; a test sees the frequencies of a finite number of finite runs.", "anchors": ["gerrychain/proposals/proposals.py: propose_any_node_flip", "gerrychain/accept.py: always_accept", "gerrychain/chain.py: MarkovChain.__next__"]}
{"id": "C125", "title": "what long runs of propose_any_node_flip with cut_edge_accept sample", "statement": "In a chain with propose_any_node_flip, cut_edge_accept and constraints under which every plan has a cut edge, another plan is proposed in proportion to the number of pairs of a node and a district label that lead there and accepted with probability min(1, cut edges before / cut edges after). In a long run a plan that can be reached counts in proportion to the number of pairs of a node and a label that give a valid plan, divided by its number of cut edges; this holds for ensemble averages, for the last plan and for runs of partition objects. Without constraints the proposal can always get to a plan without cut edges, for which cut_edge_accept raises ZeroDivisionError.", "quantifier": "all graphs with at least one node, initial plans, constraints on the plan that leave only plans with a cut edge, scores, tolerances and probabilities of error", "why_tests_cant": "The claim is about limits of probabilities over all runs; a test sees the frequencies of a finite number of finite runs.", "anchors": ["gerrychain/proposals/proposals.py: propose_any_node_flip", "gerrychain/accept.py: cut_edge_accept", "gerrychain/chain.py: MarkovChain.__next__"]}

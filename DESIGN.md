# Formal model of GerryChain: design

Target: `/repo` (mggg/GerryChain, python). The model is Lean 4 (`/verif/lean`), a shallow embedding that
mirrors the python functions branch by branch. Nothing in `/repo` was run; it was read as text.

## Layout

* `Verif/Py.lean` – python basics: exceptions (`PyErr`, `Py = Except PyErr`), insertion-ordered dictionaries (`Dict`).
* `Verif/Model/*.lean` – the model, one file per source file or topic. Each definition cites the lines it models.
* `Verif/Spec/*.lean` – small independent specifications (district of a node, crossing edges, column sums,
  connectivity through Mathlib's `SimpleGraph`, trees, ...). Theorem statements use these and the API-level model functions.
* `Verif/Lemmas/*.lean` – helper lemmas.
* `Verif/Props/*.lean` – the property theorems, each with a non-trivial `example` meeting its hypotheses.

## Conventions of the model

* Exceptions are values (`Except PyErr`). Sets are `Finset`; dictionaries are insertion-ordered association lists.
* Numbers: python ints and floats are rationals `ℚ` (exact arithmetic, no rounding, no infinities); NaN is modelled
  explicitly where the code treats it specially (Tally, percents). `exp`/`log` use `ℝ`.
* Randomness: every random draw is a universally quantified parameter (the chosen element with its membership,
  or a tape of draws). A theorem therefore holds for every outcome of every draw.
* Unbounded `while` loops take fuel; theorems hold for every fuel at which the loop returns, and termination or
  divergence is stated separately where it is claimed.
* Mutable shared state that matters (partition caches, parent pointers, class-level dictionaries, updater objects)
  is modelled by an explicit heap.
* Recursion limit: `Heap.lookup p k limit` raises `RecursionError` once the nesting of updater look-ups exceeds `limit`. Look-ups are proved total when the remaining generations of ancestors (`Frame.Shallow`: following `.parent` ends within so many steps) fit into the limit, so a chain that erases parents may make any number of partitions. Tallies need nonempty districts only in the ancestors (`Frame.Ancestor`) that are still linked.

## Trusted base

* The Lean kernel; axioms `propext`, `Classical.choice`, `Quot.sound` only (checked by `#print axioms` in the audit).
* That the model corresponds to the python text (by reading; citations in each definition).
* Assumed library behaviour: networkx graph views (`edges`, `neighbors`, `subgraph`, `degree`), `bfs_predecessors`/
  `bfs_successors`, `is_connected`, `minimum_spanning_tree` (specified where used), python `dict`/`set`/`sorted`,
  `random` (only that `choice` picks an element, `random()` is in [0,1)).
* Exact arithmetic instead of floating point.

## Not modelled

File input/output (shapefiles, JSON text: C91 models the data that `json.load` returns for what `json.dump` has written; of districtr files only the parsed content is an input), what geopandas/shapely compute about polygons (inputs of C85–C87), plotting,
pandas beyond the tables of C83–C87,
networkx internals, the eigenvalue algorithm (only what `eigh` promises), floating-point rounding, the probability distribution of `random` except in C56 and C73–C77.

## Plan per property

| id | modelled | how proved |
|----|----------|-----------|
| C01 | `Assignment`, `from_dict`, `flows_from_changes`, `update_flows`, `flip` | invariant, induction on the list of flips |
| C02 | same | functional correctness of `flip` |
| C03 | same, with KeyErrors | iff by case analysis of the two loops |
| C04 | heap of partition objects with caches, parent pointers and operations create/flip/lookup/erase | heap invariant: each cached value is correct; induction on operations |
| C05 | edge flows, `cut_edges_by_part` in the same heap | same |
| C06 | `Tally`/`DataTally` with explicit NaN in the same heap | same, under no-NaN |
| C07 | same | negation by a concrete witness, `_partial` for no-NaN |
| C08 | heap operations | frame theorem: old objects keep assignment and cached values |
| C09, C10 | compactness updaters in the same heap | same as C04 |
| C11, C12 | `Election*` classes over tallies | algebra; history part from C06 |
| C13–C18 | `MarkovChain` as a state machine over a heap of parents, oracle for draws, fuel for retries | induction over steps |
| C19 | `Validator.__call__` | induction on the list |
| C20–C22 | `bounds.py`, `validity.py` | algebra over ℚ; C21 negation for zero bounds |
| C23–C27, C59 | contiguity functions, searches with explicit worklists | loop invariants, connectivity spec from Mathlib |
| C28–C30 | county and locality split updaters | invariants over chain; aliasing through a cell; negation witness |
| C31–C33 | both cut finders with BFS dictionaries | loop invariants on a rooted tree |
| C34–C37 | bipartition loops and recursive partitioning, method as parameter | postconditions from C31/C32 |
| C38–C40, C65 | recom / reversible_recom and chains of them (Model/Recom, Props/{Recom,RecomFail,RecomChain,ReversibleRecom}) | composition of C34, C37, C41, C42; divergence theorem for C39; heap invariant for C65 |
| C41, C42 | Wilson's walk with arbitrary choices, Kruskal with surcharges | loop invariants (ranked pointers; component counts) |
| C43 | trial division loop | loop invariant with `Nat.Prime` |
| C44 | seed recursion | induction on the number of districts |
| C45, C57 | flip proposals (Model/Flips, Props/Flips) | case analysis of every random outcome; heap invariant for cached cut edges |
| C46 | metagraph enumeration (Model/Flips, Props/Metagraph) | membership characterisation, negation witness for degree |
| C47, C66, C67 | optimization runs with all callables arbitrary (Model/Optimizer) | invariant of the best state along the run; C67 negation for all scores |
| C48 | beta functions (Model/Schedules) | value in closed form, then phases; logit argument by replacing `logit` with an arbitrary function |
| C49 | acceptance functions over ℝ (Model/Optimizer) | case analysis; measure of the accepted draws; overflow witness |
| C50 | Gingleator scores (Model/Gingleator) | algebra over lists of shares |
| C51, C68 | partisan metrics (Model/Partisan) | algebra over ℚ; sorted lists; connection to C11 by `twoParty_of_lookup`; C68 negation witness |
| C52 | diversity loop (Model/Diversity) | induction; cut edges determine the districts of contiguous plans |
| C53, C69, C70 | grid graphs (Model/Grid) | arithmetic on coordinates; walks inside rectangles; perimeters through the updater theorems |
| C54, C71 | utm zones (Model/Utm) | rational arithmetic and floor; counting |
| C55 | dictionaries as objects, programs of constructions (Model/ClassState) | negation witness plus exact characterisation |
| C56 | `reversible_recom` run on tapes of uniform numbers (Model/Tape); probability = average over all tapes | exact transition formula by a bijection (tree, edge) ↔ (two trees, seam edge), then symmetry. Props/WilsonBalance replaces the ideal sampler by Wilson's algorithm on the same tape (coupling with the strict tape of C73); there the statements are limits over the tape length. Limits: plans are unlabelled, `repeat_until_valid=False`, both plans balanced |
| C72 | `num_spanning_trees` with exact determinants (Model/TreeCount) | matrix-tree theorem (Lemmas/Kirchhoff): expand the determinant of the reduced Laplacian over choices of one neighbour per node; a choice contributes 1 if it is a parent function and 0 otherwise |
| C73 | `uniform_spanning_tree` (Model/Spanning) on tapes that end (Model/StrictTape): probability of finishing within L draws with a given tree | power series in the number of draws: first-step equations of the loop-erased walk, solved by quotients of determinants (Lemmas/WalkSeries, WilsonSeries, Wilson); the product over the attached paths telescopes and does not depend on the tree. Almost sure termination: hitting probabilities (Lemmas/WilsonLimit) |
| C74 | unlabelled plans with `k` connected balanced districts (`plans`); one call of `reversible_recom` as a transition probability | detailed balance (C56) + every tape ends in exactly one of the plans (`move_total`, `move_lands`). Exact for the ideal uniform tree; for Wilson's algorithm flow into a plan = flow out of it, in the limit. Needs touching districts with ≥ 3 nodes together: otherwise the code raises `IndexError` (C31) |
| C75 | `MarkovChain.__next__` with the tape of random numbers as world | induction on the number of proposals: what is left of the tape after a proposal is as random as a new tape (`avg_draws`); geometric series |
| C76, C77 | flip proposals and `cut_edge_accept` on plans as values (Model/FlipWalk); the value of `cut_edges` is that proved in C04 | the proposals pick uniformly from explicit lists of moves (`Picks`), counted with C46/C57; conditioning by C75; stationarity by a bijection between moves and moves back |
| C78, C79 | `spectral_proposals.py` with real matrices (Model/Spectral); `eigh` is any function that returns orthonormal eigenvectors sorted by eigenvalue (`IsEigh`, `GoodEigh`, shown to exist by Mathlib's spectral theorem); the edge attribute `weight` is state shared by graph and subgraphs | Fiedler's nodal domain theorem, proved by the variational characterisation of the second eigenvalue (Lemmas/Fiedler), for both Laplacians at once by scaling |
| C80 | `recomLoop` with the default functions, `random` and `choice` reading a tape of numbers below `N` | `Can N m x` (Lemmas/Can): some prefix of the tape makes `m` return `x`, hence positive probability. Every spanning tree can be drawn (cheap edges are kept by Kruskal), every cut can be chosen (root on the side of the smaller label). The plans that can be returned are characterised exactly |
| C81 | `fromRandomAssignment` (Model/Create): target, `recursive_tree_part`, creation | C36 for the plan, creation covers the graph, C65 for the chain started there |
| C82 | `getAssignment`, `firstAssignment`, `districtrAssignment` (Model/Create) | fold over the nodes collects exactly the attribute; C01 for the inverse map; witness with a vanished district |
| C83, C84 | `joinData`, `addData` (Model/Attributes); a table is a list of rows with index labels | folds that fill dictionaries are characterised by their `get?`; exact case distinction |
| C85 | `queen`, `rook`, `graphOf`, `sharedOf` (Model/Geo); answers of shapely are inputs (`Geometries`, `Sound`) | the adjacency dictionary as a table of a symmetric relation |
| C86, C87 | `fromGeodataframe` (Model/Geo) | C84 for the attributes, C09 for the histories, double counting of shared boundaries; case analysis |
| C88 | `polsbyPopper` and the norms (Model/Compactness) | the invariant of the caches for area and perimeter; rows and columns of a set of cells (at least 2r+2c sides, at most rc cells); AM-HM and Cauchy-Schwarz on lists |
| C89 | `selfUpperCon`, `selfLowerCon` in chains (Model/Compactness, Model/Chain) | the bound as an invariant of the world over the whole run (`KeepsInv`) |
| C90 | `shannonEntropy`, `powerEntropy`, `symmetricEntropy` (Model/Entropy) | counters as cardinalities; `log x ≤ x - 1`; powers and square roots of shares; table and its inverse as functions of two labels |
| C91 | `toJson`, `adjacencyGraph`, `saveAndLoad` (Model/Json) | the file as the data that `json.load` returns; loops over nodes and rows as folds; edges read so far as a symmetric table |
| C92 | `lruCall`, `FrozenSt`, `FrozenOp.run`, `recursiveTreePartFrozen`, `fromRandomFrozen`, `subgraphItem` (Model/Frozen) | caches correct for all keys that have not been assigned, invariant over operations; simulation of `recursive_tree_part` with the remembered set in the state |
| C93 | `slow_reversible_propose_bi` in chains (`biMove`, Model/FlipWalk; Model/Chain) | law of the two draws as a weighted sum over moves, conditioned on the constraints (C75); undoing a move keeps the number of neighbouring districts |
| C94 | the updater `step` and annealing runs (Model/Annealing, over Model/Optimizer) | invariant: the current plan shows initial time + moves made, kept by lookups, erasing and new plans; induction over runs; frozen run for every length |
| C95 | `recom` and `bipartition_tree` with uniform spanning trees (Lemmas/BipLaw, Lemmas/RecomSpan, Props/RecomLaw) | exact averages over the random numbers: geometric series over the trees tried, bijection between cut trees and pairs of trees with an edge, nested sides of tree edges; counterexample with matrix-tree counts |
| C96 | `Election`, `ElectionUpdater`, `DataTally` as objects used on several graphs and under several names (Model/Elections, Lemmas/Elections, Props/Elections) | invariant over all histories (caches hold results of the remembered votes), memory only grows, provenance of what is remembered; concrete counterexamples |
| C97 | `random_spanning_tree`: minimality and law (Lemmas/KruskalMin, Lemmas/KruskalCount, Props/KruskalLaw) | greedy tree takes at least as many of the first k edges as any tree, Abel summation; every order of the edges comes from equally many sequences of different numbers, birthday bound for equal ones; diamond graph counted in the kernel |
| C98 | `recom` and `bipartition_tree` with `random_spanning_tree` (Lemmas/BipLaw, Lemmas/RecomSpan, Lemmas/KruskalOrders, Props/KruskalRecom) | the averages of C95 for any law of the trees, with the law of C97; Kolmogorov's criterion on a cycle of four plans, the orders of the edges counted in the kernel and the ties bounded |
| C99 | generators of `SingleMetricOptimizer` resumed one `next` at a time (Model/OptRuns, Props/OptRuns) | invariant over all histories of calls, `next` and `close`: the attributes agree with notes kept from the calls and results alone |
| C100 | `recursive_tree_part` with `bipartition_tree`, `random_spanning_tree` (Props/RecSupport) | completeness by constructing the draws (a spanning tree that joins the two sides, a root in the remainder), soundness from the post conditions of each cut; induction over the labels |
| C101 | generators of `SingleMetricOptimizer` against whole runs (Model/OptRuns, Model/Optimizer, Props/OptRefine) | simulation between the generator resumed at each `next` and the recursive description of the run, in both directions |
| C102 | `recursive_tree_part` with `bipartition_tree` and any spanning tree law (Lemmas/CutLaw, Props/RecLaw) | exact averages over the tape; a bound for the number of draws of each cut lets the law of one cut be used inside the next; counting argument for the cuts seen from each root; induction over the labels |
| C103 | `list(MarkovChain(reversible_recom, …, always_accept))` with the ideal spanning tree (Lemmas/Mixing, Lemmas/ChainLaw, Props/Ergodic) | the law of one step (C74) carried along the loop of the chain by averaging over the tape; a finite chain that waits and is connected forgets its start in a bounded number of steps (minorization), variance of sums along the path; renewal form for two districts. `C103_stuck` shows that the reachable plans need not be all plans |
| C104 | `list(MarkovChain(slow_reversible_propose, constraints, always_accept))`, the same with `_bi` (Lemmas/Poisson, Lemmas/RetryRun, Props/FlipRuns) | the rounds of `while` in which a plan is refused are summed up as a geometric series, which gives the sandwich between `(1 - c ^ f) ^ n` and 1 around the path law; symmetric rates give detailed balance; the ensemble average is controlled by solving Poisson's equation on the finite connected class (no aperiodicity needed, which is false for two districts: `C104_slow_parity`). Hypothesis: a node that may be moved has another neighbour in its district, which contiguity gives (`C104_applies`) |
| C105 | `list(MarkovChain(recom, constraints, always_accept))` (Lemmas/RecomKernel, Lemmas/RecomMove, Lemmas/InvariantLaw, Lemmas/RetryRun, Props/RecomRuns) | the transition probabilities are those of C95/C98 with the probability of staying included, for any law of the spanning trees; a failed proposal (`RuntimeError`) loses probability, a refused one is retried, both are summed up in the factor `roundsDone`; existence and uniqueness of the stationary law by linear algebra and the maximum principle, convergence by Poisson's equation and a minorization. Hypotheses: `RecomSetting` (two touching districts have at least three nodes), `EvenTape`; the trees of the default method depend on the resolution of the generator, `μ = treeChance N G` |
| C106 | `MarkovChain` on the objects of Model/Heap (Model/ObjChain, Lemmas/ObjChain, Props/ObjChain) | refinement: the heap with caches, cells and parents is simulated by plans step by step (`SameMove`, `SameAnswer`, `collect_same`); the chain erases the parent of the current state before a proposal is checked, so no proposal has a grandparent. `contiguous` and tallies with single flips are in C107; a tally that is read has no NaN (`Rule.Fits`) |
| C107 | `single_flip_contiguous`, `contiguous` and bounds on tallies in chains of single flips on objects (Model/ObjChain, Lemmas/ObjChain, Props/ObjFlips) | the simulation of C106 with conditions that earlier constraints establish for later ones (`SameChecks`): a proposal moves one node out of a contiguous plan (`FlipSound`), so the local test is exact (C25); after it no district is empty, so the tally has the keys of the plan (C06). The order matters: a bound on a tally that comes before the test of contiguity is not compared, because a tally after a flip that empties a district has keys that depend on how it was computed. Simplification: `random.choice` in `single_flip_contiguous` (contiguity.py:122) does not draw from the tape of the proposals; its results are an arbitrary function `draw` of the object and the node, over which the theorems quantify. The search of `are_reachable` has at least as many steps as the graph has adjacencies plus one |
| C108 | `Tally` objects with aliases under arbitrary names (Model/TallyNames, Props/TallyNames) | the caches of the objects of Model/Heap restricted to tallies, with the look-up of `parent[alias]`; invariant over histories (`RightCaches`, `AliasCaches`). Necessity of the condition is shown with the plan that puts one node alone in its district and a child made by an empty flip, so it needs two labels. The columns are numbers (NaN is in C06); `dtype` is not modelled; `DataTally` keeps its own alias (C96) |
| C109 | `short_bursts` as a Markov chain of the best plans (Model/Optimizer, Lemmas/Bursts, Lemmas/BurstLaw, Props/BurstRuns) | built on the law of one round of `__next__` (C104); random numbers uniform on `{0,…,N-1}` with `N` divisible by the sizes drawn from; the score is a function of the plan, computing it and consuming the yielded plans draw no random numbers; the law of `tilted_short_bursts` and `variable_length_short_bursts` is not covered (their bookkeeping is in C47, C49, C66, C67) |
| C110 | `short_bursts` of `recom` as a Markov chain of the best plans (Model/Optimizer, Lemmas/Bursts, Lemmas/BurstLaw, Props/BurstRecom) | the setting of C105 (fixed number of districts, real tolerance, `EvenTape`, law of the spanning tree as a parameter); the score is a function of the set of districts, computing it and consuming the yielded plans draw no random numbers |
| C111 | `warn_for_overlaps`, `issue_warnings`, `check_dataframe` with `add_data`, `join` and `from_geodataframe` (Model/Warnings, Props/Warnings) | `warnings.warn` with the default filters appends to a log; areas and lengths of intersections are inputs (`Geometries.Sound`, `AreaSound`); index labels can be sorted, columns are distinct; repeated messages are not suppressed |
| C112 | the remaining methods of `Assignment` and those inherited from `Mapping` (Model/Views, Props/Views) | a `pandas.Series` is the list of its rows; sets are iterated in sorted order; writing to the dictionary that `to_dict` returns is `writeDict` |
| C113 | `tilted_run` and `tilted_short_bursts` with the chain, for the two reversible flip proposals and `recom` (Lemmas/Tilted, Props/TiltedRuns) | `random.random()` is one of `0, 1/N, …, (N-1)/N`, all equally likely, and `p` is one of these or 1; the score depends on the plan only; at most `f` proposals in each step and, for `recom`, at most `m` attempts in each proposal |
| C114 | whole runs of `slow_reversible_propose` and `slow_reversible_propose_bi` with `cut_edge_accept` (Lemmas/RateRuns, Props/CutRuns) | as C104; the random numbers take `N` equally likely values, with `N` a multiple of the numbers of choices and of twice the numbers of cut edges; at most `f` proposals in each step |
| C115 | whole runs of `propose_random_flip` with `always_accept` and with `cut_edge_accept` (Lemmas/RateRuns, Props/CutRuns) | as C114; only plans from which each allowed move can be undone (`FlipSetting`) |
| C116 | `reprojected`, `from_geodataframe` with coordinate reference systems, `from_file` (Model/Crs, Props/Crs) | the polygons in every coordinate reference system are an input; `to_crs` and `set_crs` raise `ValueError` as documented by geopandas; two coordinate reference systems are equal or not; reading the file is an input |
| C117 | `Partition.__getitem__`, `__getattr__`, `keys`, `parts`, `FrozenGraph.__getattribute__`, and python's attribute lookup, `hasattr`, `dict`, iteration, `copy` and `pickle` as far as they call these (Model/Attr, Props/Attr) | an updater is its value or exception; `copy` and `pickle` are modelled up to the questions they put to the object (`__deepcopy__`, `__getstate__`, `__setstate__`); attributes added by the user are left out |
| C118 | `simulated_annealing` with the chain and the `step` updater, for the two reversible flip proposals and `recom`, with any periodic schedule, in particular the library's three cycles (Lemmas/Timed, Props/AnnealRuns) | `random.random()` is one of `0, 1/N, …, (N-1)/N`, all equally likely; `math.exp` and the scores are real numbers; a state is a plan with the value of its `step` updater; the score depends on the plan only; at most `f` proposals in each step; overflow excluded by a condition that `C118_overflow` shows to be needed; schedules that do not repeat (logit, constant cooling) are left out |
| C119 | `county_splits` under arbitrary names (Model/CountyNames, Props/CountyNames) | the caches of the objects of Model/Heap restricted to these updaters, with the look-up of `parent[partition_name]`; invariants over histories (`RightCounties`, `NamedCounties`). The graph has a node (without nodes a parent is falsy and the name is never looked up). What is registered under the name is a `county_splits` or nothing; another kind of updater there is left out |
| C120 | the formulas and checks of `from_latlon` and `to_latlon` (Model/UtmCoords, Props/UtmCoords) | degrees are rational numbers, eastings and northings real numbers, with exact arithmetic, sine, cosine and square root; numbers, not arrays; zone letters are single characters. How near `to_latlon(from_latlon(p))` is to `p` is treated on the equator and on the central meridian (to 2/1000 of a degree; the error of the formulas is smaller) |
| C121 | `variable_length_short_bursts` compared with `short_bursts` (Model/Optimizer, Lemmas/VarBursts, Lemmas/GrowBursts, Props/VarBursts) | the equality of the runs is for arbitrary callables whose score depends on the state only and which do not raise `StopIteration`; the probabilities are those of C109, with the same assumptions on random numbers |
| C122 | `variable_length_short_bursts` with `recom` (Model/Optimizer, Lemmas/VarBursts, Lemmas/GrowBursts, Props/VarRecom) | the setting and the assumptions on random numbers and spanning trees of C105 and C110; the numbers of proposals in a step and of attempts in a proposal are bounded, and the bounds taken as large as needed |
| C123 | `anyNodeFlip`, `proposeAnyNodeFlip` (Model/Flips, Props/AnyFlip) | exact law of the two choices on tapes (`avg_choice`); the choices of `random.choice` are uniform and independent |
| C124 | `anyMove` (Props/AnyRuns), objects (Props/AnyObj), `flipChain` (Model/FlipWalk), generic runs (Lemmas/RateRuns) | the choices of `random.choice` are uniform and independent; constraints are functions of the plan; the number of proposals in a step is bounded, and the bound taken as large as needed |
| C125 | `anyMove` (Props/AnyRuns), `cutAccept`, `flipChain` (Model/FlipWalk), Props/AnyCut | as C124; `random.random()` is uniform on multiples of 1/N |
| C58 | `accept.py` | case analysis |
| C61 | `contiguous` inside a chain over the partition heap | invariant of the run (`collect_good`) |
| C63 | `_region_preferred_max_weight_choice` with its sorted power set | first-match search in a sorted list |
| C64 | `recursive_tree_part` loop | invariant: running debt within `eps * target` |
| C62 | `MarkovChain.__next__` with constraints that raise | negation witness; `_partial` without `StopIteration` |

## Where the code disagrees with the property

* **C07** (`C07_nan_violation`): `Tally` drops NaN nodes only in its initial computation; in the incremental update a moved
  NaN node turns the sums of both districts into NaN. `C07_tally_ignores_nan_partial` holds when no flipped node is NaN.
* **C08** (`C08_defaultdict_violation`): `cut_edges_by_part` and other defaultdict-valued updaters read the parent's cached
  dictionary with `[]`, which inserts default entries into the parent's already reported value. Up to such default entries
  values never change (`C08_values_unchanged_partial`); assignments never change at all.
* **C20** (`C20_generator_violation`): `Bounds.__call__` reads its values twice (`min`, then `max`), so a function that returns a
  generator makes it raise `ValueError`. Exact for containers (`C20_bounds`).
* **C21** (`C21_zero_bound_violation`): the self-configuring bounds test `if not self.bound`, so a bound of 0 is configured again
  from the next partition. `C21_effective_bound` states what happens: the first non-zero value becomes the bound.
* **C60** (`C60_hundred_percent_violation`): same mistake in `WithinPercentRangeOfBounds`; at 100 percent nothing is ever rejected.
* **C59** (`C59_shared_bound_violation`): `no_more_discontiguous` is a single module-level object, so its bound is fixed by the
  first partition it is ever called on in the process; later chains are compared with that one.
* **C28** (`C28_new_stays_new`, `C28_erased_parent`): the chain claim holds (`C28_no_new_splits`). The claim about the flag does
  not: a county flagged NEW in the parent and still split is flagged NEW again, and with an erased parent link a newly
  split county is flagged OLD. `C28_flag_partial` gives the exact rule.
* **C30** (`C30_scores_change`, `C30_reports_last`): `LocalitySplits` returns the same dictionary from every call, so scoring a
  partition overwrites the reported scores of all earlier ones. Right after the call the scores are right
  (`C30_scores_partial`). `allowed_pieces` is used by no score but makes every call raise when the population is 0
  (`C30_zero_population`).
* **C35** (`C35_violation`): `bipartition_tree_random` ignores `one_sided_cut` and always uses one-sided cuts (tree.py:868-869), so with
  `one_sided_cut=False` the complement need not be balanced. `C35_random_partial` for what remains.
* **C39** (`C39_violation`, `C39_endless`): `recom` counts all `n(n-1)/2` pairs of districts, but can only ever mark pairs joined by
  a cut edge as bad. If some pair is not adjacent and every adjacent pair fails, it loops forever instead of raising
  `MetagraphError`. With all pairs adjacent it does raise (`C39_metagraph_error_partial`), and it is raised only if every pair
  has failed (`C39_only_if`).
* **C40** (`C40_violation`): with `repeat_until_valid=True`, `reversible_recom` also raises `RuntimeError` for balance reasons, after
  100000 trees without a balanced edge. `C40_errors_partial` lists every way in which it can raise. The rest of C40 holds.
* **C45** (`C45_no_boundary`, `C45_bi_value_error`, `C45_chunk_violation`): the two slow proposals raise `IndexError` when there is no
  boundary; `slow_reversible_propose_bi` raises `ValueError` when the drawn node has no neighbour in its own district.
  `propose_chunk_flip` leaves the drawn node where it is and moves its neighbours in *other* districts into its district.
  `propose_flip_every_district` raises `IndexError` for a district without cut edges (`C45_every_district_index_error`).
* **C46** (`C46_degree_violation`): `metagraph_degree` counts a neighbouring state once for every cut edge that leads to it. The
  enumeration itself is exact (`C46_exact`).
* **C48** (`C48_logit_violation`): with a cooldown of 0 the two logit schedules return 0 at the first step of the cold phase (`<=` in the
  first test); the linear schedules return 1 there.
* **C49** (`C49_overflow_violation`): the annealing acceptance function raises `OverflowError` for an improvement with
  `beta * magnitude * improvement` of about 710 or more (whenever `exp x ≥ 2^1024`; the witness uses 1024).
* **C50** (`C50_reward_violation`): `reward_partial_dist` and `reward_next_highest_close` raise `ValueError` (maximum of nothing) for a plan
  all of whose districts are opportunity districts, so an optimization run dies at the best possible plan.
* **C68** (`C68_violation`): the comment in `partisan_gini` promises a score between 0 and 1. With unequal turnout it can exceed 1 (22/17 for
  three districts). It never exceeds 2, and is at most 1 when the statewide share is the mean of the district shares
  (`C68_gini_range_partial`).
* **C72** (`C72_single_node_violation`, `C72_weight_violation`): `num_spanning_trees` deletes row 0 and column 1 of the Laplacian, so a district with a
  single node raises `IndexError` (there is no column 1); edges with an attribute `weight` are counted with that weight; 2^1024 trees or more
  raise `OverflowError`. In all other cases the count is exact in exact arithmetic (`C72_num_spanning_trees_partial`).
* **C78** (`C78_violation`): the side of the positive entries of the eigenvector need not be connected when other entries are zero: on a star with three
  leaves `eigh` may return (0, 1, 1, -2), and `spectral_recom` returns a district with the two leaves 1 and 2. Proved: both districts are nonempty, the
  side of the nonpositive entries is connected (`C78_spectral_partial`), and the plan is contiguous if no entry is zero (`C78_contiguous`). The weights
  must be positive; `random.random()` may return 0.
* **C79** (`C79_count_violation`): `spectral_cut` with `weight_type="random"` writes the weights into the edges of the graph of the partition and leaves
  them there. `num_spanning_trees` and later spectral cuts without random weights then use them.
* **C80** (`C80_violation`): a re-split whose smaller-labelled district is a single node is never proposed. The set reported for a balanced cut is the
  side of the root, the root is drawn among the nodes with two neighbours in the tree, and the set gets the smaller label. All other re-splits are
  proposed with positive probability (`C80_recom_support_partial`).
* **C81** (`C81_one_district_violation`): `from_random_assignment` with one district raises `IndexError` and with none `ZeroDivisionError`.
* **C82** (`C82_assignment_violation`): a partition made from an `Assignment` in which a district has become empty lists one district fewer than the
  assignment, because the inverse map is built from the nodes. The district of every node is right (`C82_assignment_partial`).
* **C84** (`C84_columns_violation`): `add_data` writes all columns of the table into the nodes, whatever `columns` says; an attribute with the name of a column
  that was not requested is overwritten.
* **C86** (`C86_overwrite_violation`): consequently a column named `area`, `boundary_node` or `boundary_perim` replaces the value that `from_geodataframe`
  computed, even if `cols_to_add` does not mention it. Without such columns the property holds (`C86_attributes_partial`, `C86_perimeter_partial`).
* **C87** (`C87_reprojection_violation`): after the reprojection the test of `ignore_errors` is the wrong way round: invalid geometries raise with
  `ignore_errors=True` and are accepted with `False`. Without reprojection the property holds (`C87_validation_partial`).
* **C89** (`C89_later_chain_violation`, `C89_two_chains_violation`, `C89_nan_violation`, `C89_zero_violation`, `C89_first_chain_violation`): `no_worse_L_minus_1_polsby_popper`,
  `no_worse_L1_reciprocal_polsby_popper` and `no_more_discontiguous` are objects of the module; the bound that the first chain of the process configures
  stays. A second chain is judged by it: its constructor may raise although its plan is its own, or it accepts plans much worse than its initial one.
  A NaN value makes the object refuse everything from then on. A bound of zero counts as unset, so the first chain already loses its bound if the
  initial plan configures it to zero. For a first chain with any other bound the property holds (`C89_first_chain_partial`).
* **C90** (`C90_number_violation`, `C90_symmetric_violation`): `shannon_entropy` and `power_entropy` test `locality in count` but read
  `count[str(locality)]`, so localities that are numbers make them raise `KeyError`. `symmetric_entropy` divides by the population of
  every district and locality. Otherwise the scores are exact (`C90_shannon_partial`, `C90_power_partial`, `C90_symmetric_partial`).
* **C91** (`C91_labels_violation`, `C91_id_violation`, `C91_values_violation`, `C91_names_violation`): `to_json` never complains, but a graph whose labels are
  tuples (every `Grid`) cannot be loaded again; an attribute called `"id"` is lost; numbered attributes become strings and may be merged; and `json_serialize`
  turns every value that JSON does not know, for instance a numpy float or Boolean or the geometry of an edge, into `None`. The rest survives
  (`C91_round_trip_partial`, `C91_portable`), and what has been loaded once survives for ever (`C91_loaded`).
* **C92** (`C92_lookup_violation`, `C92_tree_part_violation`, `C92_random_violation`): `networkx.freeze` does not protect the attributes of nodes; once an attribute has been
  looked up, `FrozenGraph.lookup` (and with it `Tally`) keeps returning the old value. `recursive_tree_part` and `epsilon_tree_bipartition` write
  `remaining_nodes = graph.node_indices; remaining_nodes -= nodes`. For a `FrozenGraph` this is the remembered set itself, so that afterwards the graph of
  the partition claims to have only the nodes of the last district, and `from_random_assignment(partition.graph, …)` always raises `KeyError`. (With the default
  spanning tree networkx raises before that, since it cannot copy a `FrozenGraph`; the statement is for every method.) Otherwise the caches are right
  (`C92_structure`, `C92_lookup_partial`, `C92_indices_partial`, `C92_subgraphs`, `C92_subgraph_items`).
* **C94** (`C94_frozen_violation`): `simulated_annealing` documents its schedule as a function of time, but evaluates it at the
  updater `step`, which counts accepted moves (`C94_clock_partial`).  While proposals are rejected the clock stands still
  (`C94_stands_still`); with the schedule "one step hot, one step cold" a run from an optimum rejects its first proposal in the cold
  step and then stays cold for ever.  Not covered: proposals that return the current plan itself, which are accepted without a
  reading of the clock (`C49_no_parent`).
* **C96** (`C96_second_graph_violation`, `C96_corrected_votes_violation`, `C96_other_election_violation`, `C96_unregistered_alias`, `C96_unknown_node`): `DataTally` replaces the name of its column by the values of the first graph it meets, so an `Election` used on a second graph, or after votes were corrected, silently reports the old votes. An election looks up its previous totals under its alias, whatever name it is registered under.
* **C99** (`C99_current_plan_violation`, `C99_lags`, `C99_two_runs_violation`, `C99_foreign_start_violation`, `C99_failed_start_violation`):
  the documentation of `SingleMetricOptimizer` says that `best_part` and `best_score` represent the best plan observed "both during and
  after" a run.  The runs `yield` a plan before they score it, so inside a `for` loop the attributes do not know the current plan, and a
  loop left with `break` never counts its last plan.  The runs of one optimizer share the attributes: when two runs are advanced in turn,
  the best plan of the run that began last may be a plan of the other one, and a burst may start at a plan of another run.  A run whose
  first score raises has already replaced `best_part` but not `best_score`.  Proved: what is reported in every history, and the
  documented claim for a single run up to the plan handed out last.
* **C100** (`C100_every_plan_violation`): `recursive_tree_part` tightens the population bounds of a district by the error made so far.  A
  plan in which every district is within the tolerance may therefore be impossible for every order of the labels: for seven districts
  along a line with the populations 12, 11, 8, 8, 8, 11, 12 (target 10, tolerance 20%) one has to begin at an end, and then both
  districts that could follow are too large.  Proved: exactly which plans are possible.
* **C67** (`C67_never_grows`, `C67_violation`): `variable_length_short_bursts` never changes the burst length. Each burst begins by yielding
  the best state itself; its score is compared with `>=`/`<=`, counts as an improvement and resets `time_stuck`, which therefore stays
  below the burst length.
* **C55** (`C55_leak_violation`, `C55_violation`, `C55_grid_violation`): updaters passed to one partition are written into the class attribute
  `default_updaters` and become updaters of every partition of the class, also of those created earlier. `Grid.__init__` writes its defaults
  into the user's dictionary and ignores updaters of the user with the same names.
* Remark on C76, C77 (`C76_not_uniform`, `C77_not_uniform`): neither flip chain has the uniform distribution as reversible distribution. With constraints
  `slow_reversible_propose` weights plans by their number of valid moves, because invalid proposals are drawn again instead of being counted as a
  step; `propose_random_flip` with `cut_edge_accept` favours moves towards the district with more neighbours of the moved node.
* **C70** (`C70_transposed_violation`): `Grid.as_list_of_lists` documents entry (i, j) as the district of node (i, j); it is that of node (j, i).
* **C53, C54** (remarks): a one-row grid gets wrong `boundary_perim` values (`C53_one_row_violation`), and longitude 180 is accepted but gives
  zone 61 (`C54_dateline_violation`). Both are outside the ranges of the properties.
* **C62** (`C62_stop_iteration_leak`): `_bfs` calls `next(iter(graph))`; on an emptied district this raises `StopIteration` inside
  `MarkovChain.__next__`, so `list(chain)` silently ends early. `C62_full_length_partial` without such exceptions.
* Remarks: `contiguous()` raises `NetworkXPointlessConcept` instead of answering `False` when a flip empties a district
  (`C24_emptied_district`); after `parent = None` it examines only districts that gained nodes (`C23_erased_parent`).
* Remark on C31–C33: on a tree with two nodes both cut finders raise `IndexError` (no node of degree > 1 can be drawn as root),
  even when the single edge is balanced (`C31_two_nodes`).
* Remark on C42: a surcharge of 1 on *each of two* attributes does not keep the regions of either attribute connected inside the
  tree (`C42_two_attributes`); the theorem needs the surcharge to exceed the sum of the others by 1.
* **C111** (`C111_na_violation`): `add_data` checks the columns asked for, but adds all columns of the table (C84): missing values in the others get on the
  graph without a warning. With `columns=None` every missing value has been warned about (`C111_na_partial`); `join` is exact (`C111_join`).
* **C112** (`C112_to_dict_violation`): `to_dict` returns the dictionary of the assignment itself, so writing to the result moves the node in `assignment[v]`
  but not in `parts`.
* **C116** (`C116_from_file_violation`, `C116_from_file_missing_violation`, `C116_override_violation`, `C116_argument_violation`): with `reproject=True`,
  `from_file` overwrites the recorded coordinate reference system by that of the file, though the numbers are in the UTM zone; for a file without one it
  raises `AttributeError` where `from_geodataframe` warns; `crs_override` is refused if the table has another one; without one it is written into the table of
  the caller. Elsewhere the property holds (`C116_recorded`, `C116_areas`, `C116_from_file_partial`, `C116_argument_partial`).
* **C117** (`C117_attr_violation`, `C117_hasattr_violation`, `C117_in_violation`, `C117_copy_violation`, `C117_frozen_violation`): an updater called like a slot or a
  method (`parts`, `flips`, …) is not reachable as an attribute; for a name that a partition does not have, `__getattr__` raises `KeyError`, not `AttributeError`, so
  `hasattr` and `getattr` with a default raise; there is no `__contains__` or `__iter__`, so `in` raises `KeyError`; an object whose slots are not set yet
  calls `__getattr__` for `_cache` without end, so `copy.copy`, `copy.deepcopy` and `pickle.loads` never return. Brackets and `dict` are as they should be (`C117_item`,
  `C117_dict`), attributes for other names too (`C117_attr_partial`, `C117_hasattr_partial`).
* **C120** (UTM coordinates): in the latitude of `to_latlon` the term of order 6 stands outside of the factor `p_tan / r` (vendor/utm/conversion.py:168-173), so it does not change sign in the south: off the central meridian points mirrored at the equator do not get opposite latitudes (`C120_to_south_violation`), and points of the equator come back north of it, by less than a millionth of a degree (`C120_equator_violation`). At longitude 180 `from_latlon` returns zone 61, which `to_latlon` rejects (`C120_dateline_violation`); a forced zone letter is checked only together with a forced zone number (`C120_letter_violation`).
* **C121** (`C121_same_run`, `C121_slow_trap`, `C121_bi_trap`, `C121_violation`): because of C67 `variable_length_short_bursts` with `stuck_buffer >= 1` does what `short_bursts` with `burst_length=2` does. It never leaves a plan all of whose neighbours are worse, however many steps it gets. With `stuck_buffer <= 0` the lengths do double, and the property holds (`C121_slow_grows`, `C121_bi_grows`).

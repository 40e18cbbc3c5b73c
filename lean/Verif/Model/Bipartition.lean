import Verif.Model.Tree
import Mathlib.Data.List.Sort

/-!
# Bipartitions of graphs

Model of `gerrychain/tree.py` lines 446-966.
-/

set_option linter.unusedSectionVars false
set_option autoImplicit false

namespace GC

variable {V : Type} [LinearOrder V] {S : Type}

/-- a spanning tree as returned by a `spanning_tree_fn`: the graph with its edge attribute `random_weight`
(gerrychain/tree.py:60-132) -/
structure WTree (V : Type) where
  graph : Graph V
  weight : V → V → Option ℚ

/-- `max(l, key=...)`: the first element of greatest key; `ValueError` on an empty list -/
def pyMaxBy {α : Type} (key : α → ℚ) : List α → Py α
  | [] => .error .valueError
  | x :: xs => .ok (xs.foldl (fun best y => if key best < key y then y else best) x)

/-- `_max_weight_choice` (gerrychain/tree.py:446-480); the weights of modelled cuts are never `None`.
`cut_edge_list[0]` raises `IndexError` on an empty list. -/
def maxWeightChoice (cuts : List (Cut V)) : Py (Cut V) :=
  if cuts = [] then .error .indexError else pyMaxBy Cut.weight cuts

/-- `itertools.combinations(l, n)` -/
def combinations {α : Type} : ℕ → List α → List (List α)
  | 0, _ => [[]]
  | _ + 1, [] => []
  | n + 1, x :: xs => (combinations n xs).map (x :: ·) ++ combinations (n + 1) xs

/-- `sum(d[i] for i in s)` for keys of `d` -/
def surchargeSum (d : Dict String ℚ) (s : List String) : ℚ := (s.map (fun k => (d.get? k).getD 0)).sum

/-- the sort order of `_power_set_sorted_by_size_then_sum` (gerrychain/tree.py:490-492): descending by size, then by sum -/
def psKeyGe (d : Dict String ℚ) (s t : List String) : Prop :=
  t.length < s.length ∨ (t.length = s.length ∧ surchargeSum d t ≤ surchargeSum d s)

instance (d : Dict String ℚ) : DecidableRel (psKeyGe d) := fun s t => by unfold psKeyGe; infer_instance

/-- `_power_set_sorted_by_size_then_sum` (gerrychain/tree.py:483-494) -/
def powerSetSorted (d : Dict String ℚ) : List (List String) :=
  ((List.range d.keys.length).flatMap (fun i => combinations (i + 1) d.keys)).insertionSort (psKeyGe d)

/-- the loop over region combinations (gerrychain/tree.py:566-576): the cuts that cross all regions of the first combination
for which there is such a cut -/
def firstSuitable (crosses : String → Cut V → Bool) (cuts : List (Cut V)) : List (List String) → Option (List (Cut V))
  | [] => none
  | comb :: rest =>
    let suitable := cuts.filter (fun c => comb.all (fun k => crosses k c))
    if suitable ≠ [] then some suitable else firstSuitable crosses cuts rest

/-- `_region_preferred_max_weight_choice` (gerrychain/tree.py:501-578).  `attr k v` is the attribute `k` of node `v` of the
tree (`None` when missing); `surcharge` is `none` when it is not a dictionary. -/
def regionChoice {A : Type} [DecidableEq A] (R : Rand S) (attr : String → V → Option A) (surcharge : Option (Dict String ℚ))
    (cuts : List (Cut V)) : M S (Cut V) :=
  match surcharge with
  | none => R.choice cuts
  | some d =>
    if cuts = [] then M.raise .indexError
    else if d.keys.length < 1 ∨ d.keys.length > 3 then M.lift (maxWeightChoice cuts)
    else
      match firstSuitable (fun k c => decide (attr k c.edge.1 ≠ attr k c.edge.2)) cuts (powerSetSorted d) with
      | some suitable => M.lift (maxWeightChoice suitable)
      | none => M.lift (maxWeightChoice cuts)

/-- the callables and numbers `bipartition_tree` works with (gerrychain/tree.py:581-597, 798-810); `spanFn` and `balanceFn`
already have `region_surcharge` and `one_sided_cut` applied (664-668) -/
structure BipConfig (V S : Type) where
  spanFn : Graph V → M S (WTree V)
  balanceFn : PopGraph V → M S (List (Cut V))
  nodeRepeats : ℕ
  maxAttempts : Option ℕ

/-- `max_attempts is None or attempts < max_attempts` (gerrychain/tree.py:679, 782) -/
def attemptsLeft (maxAttempts : Option ℕ) (attempts : ℕ) : Bool :=
  match maxAttempts with
  | none => true
  | some m => decide (attempts < m)

/-- one iteration: the spanning tree that is used, the new value of `restarts`, the populated graph and its cuts
(gerrychain/tree.py:680-691, 783-787) -/
def bipStep (cfg : BipConfig V S) (G : Graph V) (pop : V → ℚ) (target eps : ℚ) (tree : WTree V) (restarts : ℕ) :
    M S (WTree V × ℕ × PopGraph V × List (Cut V)) := do
  let (tree, restarts) ← (if restarts = cfg.nodeRepeats then (do
      let t ← cfg.spanFn G
      pure (t, 0)) else pure (tree, restarts) : M S (WTree V × ℕ))
  let h := PopGraph.init G.nodes tree.graph tree.weight pop target eps
  let cuts ← cfg.balanceFn h
  pure (tree, restarts, h, cuts)

/-- the loop of `bipartition_tree` (gerrychain/tree.py:679-718).  Simplified: the warning (702-710) is not modelled. -/
def bipLoop (cfg : BipConfig V S) (cutChoice : PopGraph V → List (Cut V) → M S (Cut V)) (allowReselection : Bool)
    (G : Graph V) (pop : V → ℚ) (target eps : ℚ) : ℕ → WTree V → ℕ → ℕ → M S (Finset V)
  | 0, _, _, _ => M.raise .outOfFuel
  | n + 1, tree, restarts, attempts =>
    if attemptsLeft cfg.maxAttempts attempts then do
      let (tree, restarts, h, cuts) ← bipStep cfg G pop target eps tree restarts
      if cuts ≠ [] then do
        let c ← cutChoice h cuts
        pure c.subset
      else bipLoop cfg cutChoice allowReselection G pop target eps n tree (restarts + 1) (attempts + 1)
    else if allowReselection then M.raise .reselectException
    else M.raise .runtimeError

/-- `bipartition_tree` (gerrychain/tree.py:581-718); `tree` is the argument `spanning_tree` -/
def bipartitionTree (cfg : BipConfig V S) (cutChoice : PopGraph V → List (Cut V) → M S (Cut V)) (allowReselection : Bool)
    (fuel : ℕ) (tree : Option (WTree V)) (G : Graph V) (pop : V → ℚ) (target eps : ℚ) : M S (Finset V) := do
  let t ← (match tree with
    | some t => pure t
    | none => cfg.spanFn G : M S (WTree V))
  bipLoop cfg cutChoice allowReselection G pop target eps fuel t 0 0

/-- the loop of `_bipartition_tree_random_all` (gerrychain/tree.py:782-795) -/
def randomAllLoop (cfg : BipConfig V S) (repeatUntilValid : Bool)
    (G : Graph V) (pop : V → ℚ) (target eps : ℚ) : ℕ → WTree V → ℕ → ℕ → M S (List (Cut V))
  | 0, _, _, _ => M.raise .outOfFuel
  | n + 1, tree, restarts, attempts =>
    if attemptsLeft cfg.maxAttempts attempts then do
      let (tree, restarts, _, cuts) ← bipStep cfg G pop target eps tree restarts
      if repeatUntilValid && cuts.isEmpty then
        randomAllLoop cfg repeatUntilValid G pop target eps n tree (restarts + 1) (attempts + 1)
      else pure cuts
    else M.raise .runtimeError

/-- `_bipartition_tree_random_all` (gerrychain/tree.py:721-795) -/
def bipartitionRandomAll (cfg : BipConfig V S) (repeatUntilValid : Bool) (fuel : ℕ) (tree : Option (WTree V))
    (G : Graph V) (pop : V → ℚ) (target eps : ℚ) : M S (List (Cut V)) := do
  let t ← (match tree with
    | some t => pure t
    | none => cfg.spanFn G : M S (WTree V))
  randomAllLoop cfg repeatUntilValid G pop target eps fuel t 0 0

/-- `bipartition_tree_random` (gerrychain/tree.py:798-885).  `balance oneSided` is the balance function with
`one_sided_cut=oneSided`; the argument `one_sided_cut` of the function is not used (868-869). -/
def bipartitionTreeRandom (R : Rand S) (spanFn : Graph V → M S (WTree V)) (balance : Bool → PopGraph V → M S (List (Cut V)))
    (nodeRepeats : ℕ) (maxAttempts : Option ℕ) (repeatUntilValid : Bool) (fuel : ℕ) (tree : Option (WTree V))
    (_oneSidedCut : Bool) (G : Graph V) (pop : V → ℚ) (target eps : ℚ) : M S (Option (Finset V)) := do
  let cuts ← bipartitionRandomAll ⟨spanFn, balance true, nodeRepeats, maxAttempts⟩ repeatUntilValid fuel tree G pop target eps
  if cuts ≠ [] then do
    let c ← R.choice cuts
    pure (some c.subset)
  else pure none

/-- `find_balanced_edge_cuts_memoization` (gerrychain/tree.py:351-424) with enough fuel for every tree; on graphs that are not
trees the model may run out of fuel where python continues -/
def memoBalance (R : Rand S) (oneSided : Bool) (h : PopGraph V) : M S (List (Cut V)) :=
  cutsMemoization R (2 * h.graph.nodes.card) h oneSided

/-- `find_balanced_edge_cuts_contraction` (gerrychain/tree.py:243-286) with enough fuel for every tree, see `memoBalance` -/
def contrBalance (R : Rand S) (oneSided : Bool) (h : PopGraph V) : M S (List (Cut V)) :=
  cutsContraction R h.graph.nodes.card h oneSided

/-- a bipartition `method` as called by the functions below: subgraph, target, epsilon and `one_sided_cut`; `none` is
python's `None` (gerrychain/tree.py:935-942, 1027-1036) -/
abbrev Method (V S : Type) := Graph V → ℚ → ℚ → Bool → M S (Option (Finset V))

/-- `check_pop` (gerrychain/tree.py:931-933, 1017-1019) -/
def checkPop (target eps x : ℚ) : Bool := decide (target * (1 - eps) ≤ x) && decide (x ≤ target * (1 + eps))

/-- the loop that assigns the nodes of one part and adds up its population, followed by the test
(gerrychain/tree.py:947-953, 958-964, 1041-1047) -/
def assignPart {P : Type} (pop : V → ℚ) (target eps : ℚ) (flips : Dict V P) (nodes : Finset V) (part : P) :
    Py (Dict V P × ℚ) :=
  let st := (iter nodes).foldl (fun st v => (st.1.set v part, st.2 + pop v)) (flips, (0 : ℚ))
  if checkPop target eps st.2 then .ok st else .error .populationBalanceError

/-- `nodes is None` → `BalanceError` (gerrychain/tree.py:944-945, 1038-1039) -/
def notNone (x : Option (Finset V)) : Py (Finset V) :=
  match x with
  | some s => .ok s
  | none => .error .balanceError

/-- the last two districts (gerrychain/tree.py:935-966 and 1054-1085) -/
def lastTwo {P : Type} (method : Method V S) (G : Graph V) (pop : V → ℚ) (target eps : ℚ) (p q : P) (flips : Dict V P)
    (remaining : Finset V) : M S (Dict V P) := do
  let r ← method (G.subgraph remaining) target eps false
  let nodes ← M.lift (notNone r)
  let (flips, _) ← M.lift (assignPart pop target eps flips nodes p)
  let (flips, _) ← M.lift (assignPart pop target eps flips (remaining \ nodes) q)
  pure flips

/-- `epsilon_tree_bipartition` (gerrychain/tree.py:888-966) -/
def epsilonTreeBipartition {P : Type} (method : Method V S) (G : Graph V) (parts : List P) (pop : V → ℚ) (target eps : ℚ) :
    M S (Dict V P) :=
  match parts with
  | [p, q] => lastTwo method G pop target eps p q Dict.empty G.nodes
  | _ => M.raise .valueError

/-- the numbers of one iteration of `recursive_tree_part` (gerrychain/tree.py:1022-1024, 1031): target and epsilon of the
next district.  `ZeroDivisionError` when the target is 0. -/
def debtTarget (target eps debt : ℚ) : Py (ℚ × ℚ) :=
  let minPop := max (target * (1 - eps)) (target * (1 - eps) - debt)
  let maxPop := min (target * (1 + eps)) (target * (1 + eps) - debt)
  let newTarget := (minPop + maxPop) / 2
  if 2 * newTarget = 0 then .error .zeroDivision else .ok (newTarget, (maxPop - minPop) / (2 * newTarget))

/-- the loop over `parts[:-2]` and the last two districts of `recursive_tree_part` (gerrychain/tree.py:1021-1085).
Simplified: with fewer than two parts `parts[-2]` (1068) raises `IndexError` once the method has returned a node; the model
raises it right away. -/
def recursiveLoop {P : Type} (method : Method V S) (G : Graph V) (pop : V → ℚ) (target eps : ℚ) :
    List P → Dict V P → Finset V → ℚ → M S (Dict V P)
  | [], _, _, _ => M.raise .indexError
  | [_], _, _, _ => M.raise .indexError
  | [p, q], flips, remaining, _ => lastTwo method G pop target eps p q flips remaining
  | part :: rest, flips, remaining, debt => do
    let (newTarget, newEps) ← M.lift (debtTarget target eps debt)
    let r ← method (G.subgraph remaining) newTarget newEps true
    let nodes ← M.lift (notNone r)
    let (flips, partPop) ← M.lift (assignPart pop target eps flips nodes part)
    recursiveLoop method G pop target eps rest flips (remaining \ nodes) (debt + (partPop - target))

/-- `recursive_tree_part` (gerrychain/tree.py:971-1085) -/
def recursiveTreePart {P : Type} (method : Method V S) (G : Graph V) (parts : List P) (pop : V → ℚ) (target eps : ℚ) :
    M S (Dict V P) := recursiveLoop method G pop target eps parts Dict.empty G.nodes 0

end GC

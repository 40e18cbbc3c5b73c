import Verif.Spec.Tree

/-!
# Balanced cuts of spanning trees

Model of `gerrychain/tree.py` lines 52-424.
-/

set_option linter.unusedSectionVars false
set_option autoImplicit false

namespace GC

/-- The random number generator: the callable `choice` (default `random.choice`, gerrychain/tree.py:244, 352) and
`random.random`.  Any callables on any world `S`. -/
structure Rand (S : Type) where
  choice : {α : Type} → List α → M S α
  random : M S ℚ

/-- What the library functions guarantee: `choice` returns an element of a nonempty list and raises `IndexError` on an
empty one; `random` returns a number in `[0, 1)`. -/
structure Rand.Valid {S : Type} (R : Rand S) : Prop where
  choice_mem : ∀ {α : Type} (l : List α) (s : S), l ≠ [] → ∃ x ∈ l, ∃ s', R.choice l s = (.ok x, s')
  choice_nil : ∀ {α : Type} (s : S), ∃ s', R.choice ([] : List α) s = (.error .indexError, s')
  random_ok : ∀ s, ∃ x s', R.random s = (.ok x, s') ∧ 0 ≤ x ∧ x < 1

variable {V : Type} [LinearOrder V]

/-- networkx's breadth-first search (`bfs_edges`, used by gerrychain/tree.py:53 and 57): the nodes in the order in which
they are expanded, each with the list of the nodes discovered from it.  Simplified: networkx keeps one list per level, the
model one queue, which expands the nodes in the same order; neighbours are visited in increasing order. -/
def bfsGroups (T : Graph V) : ℕ → Finset V → List V → List (V × List V)
  | 0, _, _ => []
  | _ + 1, _, [] => []
  | n + 1, seen, p :: q =>
    let cs := (iter (T.neighbors p)).filter (fun c => c ∉ seen)
    (p, cs) :: bfsGroups T n (seen ∪ cs.toFinset) (q ++ cs)

/-- the search from `root`; every node is expanded at most once -/
def bfsFrom (T : Graph V) (root : V) : List (V × List V) := bfsGroups T T.nodes.card {root} [root]

/-- `predecessors(h, root)` (gerrychain/tree.py:52-53) -/
def predecessors (T : Graph V) (root : V) : Dict V V :=
  ((bfsFrom T root).flatMap (fun g => g.2.map (fun c => (c, g.1)))).foldl (fun d e => d.set e.1 e.2) Dict.empty

/-- `successors(h, root)` (gerrychain/tree.py:56-57): networkx reports the root and the nodes with at least one child -/
def successors (T : Graph V) (root : V) : Dict V (List V) :=
  ((bfsFrom T root).filter (fun g => g.1 = root ∨ g.2 ≠ [])).foldl (fun d e => d.set e.1 e.2) Dict.empty

/-- `PopulatedGraph` (gerrychain/tree.py:135-184).  `weight` is the edge attribute `random_weight`, if present.
Simplified: `population`, `subsets` and `_degrees` are total functions (their dictionaries have all nodes as keys, 176-181). -/
structure PopGraph (V : Type) where
  graph : Graph V
  weight : V → V → Option ℚ
  population : V → ℚ
  totPop : ℚ
  idealPop : ℚ
  epsilon : ℚ

/-- `PopulatedGraph.__init__` (gerrychain/tree.py:155-181) for populations of the nodes `nodes` -/
def PopGraph.init (nodes : Finset V) (T : Graph V) (weight : V → V → Option ℚ) (pop : V → ℚ) (ideal eps : ℚ) :
    PopGraph V := ⟨T, weight, pop, ((iter nodes).map pop).sum, ideal, eps⟩

/-- `Cut` (gerrychain/tree.py:233) -/
structure Cut (V : Type) where
  edge : V × V
  weight : ℚ
  subset : Finset V

/-- `PopulatedGraph.has_ideal_population` (gerrychain/tree.py:191-217) for a node of (contracted) population `x` -/
def PopGraph.hasIdeal (h : PopGraph V) (oneSided : Bool) (x : ℚ) : Bool :=
  if oneSided then decide (|x - h.idealPop| < h.epsilon * h.idealPop)
  else decide (|x - h.idealPop| ≤ h.epsilon * h.idealPop) &&
    decide (|(h.totPop - x) - h.idealPop| ≤ h.epsilon * h.idealPop)

/-- the mutable parts of the populated graph and the local variables of the contraction loop
(gerrychain/tree.py:175-181, 267-268) -/
structure ContrState (V : Type) where
  population : V → ℚ
  subsets : V → Finset V
  degrees : V → ℤ
  leaves : List V
  cuts : List (Cut V)

/-- `contract_node` (gerrychain/tree.py:186-189) followed by the test of the parent (283-284) -/
def ContrState.contract (st : ContrState V) (root leaf parent : V) (rest : List V) (cuts : List (Cut V)) :
    ContrState V :=
  let deg := Function.update st.degrees parent (st.degrees parent - 1)
  { population := Function.update st.population parent (st.population parent + st.population leaf)
    subsets := Function.update st.subsets parent (st.subsets parent ∪ st.subsets leaf)
    degrees := deg
    leaves := if deg parent = 1 ∧ parent ≠ root then rest ++ [parent] else rest
    cuts := cuts }

/-- the test of a leaf (gerrychain/tree.py:271-279): the list of cuts afterwards -/
def contrCut {S : Type} (R : Rand S) (h : PopGraph V) (oneSided : Bool) (pred : Dict V V) (st : ContrState V)
    (leaf : V) : M S (List (Cut V)) :=
  if h.hasIdeal oneSided (st.population leaf) then do
    let p ← M.lift (pred.get leaf)
    let r ← R.random
    pure (st.cuts ++ [⟨(leaf, p), (h.weight leaf p).getD r, st.subsets leaf⟩])
  else pure st.cuts

/-- the loop of `find_balanced_edge_cuts_contraction` (gerrychain/tree.py:269-285) -/
def contractionLoop {S : Type} (R : Rand S) (h : PopGraph V) (oneSided : Bool) (pred : Dict V V) (root : V) :
    ℕ → ContrState V → M S (List (Cut V))
  | 0, _ => M.raise .outOfFuel
  | n + 1, st =>
    match st.leaves with
    | [] => pure st.cuts
    | leaf :: rest => do
      let cuts ← contrCut R h oneSided pred st leaf
      let parent ← M.lift (pred.get leaf)
      contractionLoop R h oneSided pred root n (st.contract root leaf parent rest cuts)

/-- `find_balanced_edge_cuts_contraction` (gerrychain/tree.py:243-286) -/
def cutsContraction {S : Type} (R : Rand S) (fuel : ℕ) (h : PopGraph V) (oneSided : Bool) : M S (List (Cut V)) := do
  let root ← R.choice ((iter h.graph.nodes).filter (fun x => h.graph.degree x > 1))
  contractionLoop R h oneSided (predecessors h.graph root) root fuel
    { population := h.population
      subsets := fun v => {v}
      degrees := fun v => h.graph.degree v
      leaves := (iter h.graph.nodes).filter (fun x => h.graph.degree x = 1)
      cuts := [] }

/-- the loop of `_calc_pops` (gerrychain/tree.py:306-320); the top of the stack is the head of the list -/
def calcPopsLoop (succ : Dict V (List V)) (pop : V → ℚ) : ℕ → List V → Dict V ℚ → Py (Dict V ℚ)
  | 0, _, _ => .error .outOfFuel
  | _ + 1, [], pops => .ok pops
  | n + 1, x :: stack, pops =>
    if pops.contains x then calcPopsLoop succ pop n stack pops
    else match succ.get? x with
      | some children =>
        if children.all (fun c => pops.contains c) then
          calcPopsLoop succ pop n stack (pops.set x ((children.map (fun c => (pops.get? c).getD 0)).sum + pop x))
        else
          calcPopsLoop succ pop n ((children.filter (fun c => !pops.contains c)).reverse ++ x :: stack) pops
      | none => calcPopsLoop succ pop n stack (pops.set x (pop x))

/-- `_calc_pops` (gerrychain/tree.py:289-322) -/
def calcPops (fuel : ℕ) (succ : Dict V (List V)) (root : V) (pop : V → ℚ) : Py (Dict V ℚ) := do
  let cs ← succ.get root
  calcPopsLoop succ pop fuel cs.reverse Dict.empty

/-- the loop of `_part_nodes` (gerrychain/tree.py:338-347); the queue is used as a stack, its top is the head -/
def partNodesLoop (succ : Dict V (List V)) : ℕ → List V → Finset V → Py (Finset V)
  | 0, _, _ => .error .outOfFuel
  | _ + 1, [], nodes => .ok nodes
  | n + 1, x :: queue, nodes =>
    if x ∈ nodes then partNodesLoop succ n queue nodes
    else
      let nodes := insert x nodes
      partNodesLoop succ n ((((succ.get? x).getD []).filter (fun c => c ∉ nodes)).reverse ++ queue) nodes

/-- `_part_nodes` (gerrychain/tree.py:325-348) -/
def partNodes (fuel : ℕ) (succ : Dict V (List V)) (start : V) : Py (Finset V) := partNodesLoop succ fuel [start] ∅

/-- one `cuts.append(...)` of `find_balanced_edge_cuts_memoization` (gerrychain/tree.py:386-394, 396-404, 412-420);
`inside` tells whether the subset is `_part_nodes(node, succ)` or its complement -/
def memoCut {S : Type} (R : Rand S) (fuel : ℕ) (h : PopGraph V) (pred : Dict V V) (succ : Dict V (List V))
    (inside : Bool) (node : V) : M S (Cut V) := do
  let p ← M.lift (pred.get node)
  let wt ← R.random
  let part ← M.lift (partNodes fuel succ node)
  pure ⟨(node, p), (h.weight node p).getD wt, if inside then part else h.graph.nodes \ part⟩

/-- the loops of `find_balanced_edge_cuts_memoization` (gerrychain/tree.py:384-405 and 409-423) -/
def memoLoop {S : Type} (R : Rand S) (fuel : ℕ) (h : PopGraph V) (pred : Dict V V) (succ : Dict V (List V))
    (oneSided : Bool) : List (V × ℚ) → List (Cut V) → M S (List (Cut V))
  | [], cuts => pure cuts
  | (node, treePop) :: rest, cuts =>
    if oneSided then
      if |treePop - h.idealPop| ≤ h.idealPop * h.epsilon then do
        let c ← memoCut R fuel h pred succ true node
        memoLoop R fuel h pred succ oneSided rest (cuts ++ [c])
      else if |(h.totPop - treePop) - h.idealPop| ≤ h.idealPop * h.epsilon then do
        let c ← memoCut R fuel h pred succ false node
        memoLoop R fuel h pred succ oneSided rest (cuts ++ [c])
      else memoLoop R fuel h pred succ oneSided rest cuts
    else
      if |treePop - h.idealPop| ≤ h.idealPop * h.epsilon ∧
          |(h.totPop - treePop) - h.idealPop| ≤ h.idealPop * h.epsilon then do
        let c ← memoCut R fuel h pred succ false node
        memoLoop R fuel h pred succ oneSided rest (cuts ++ [c])
      else memoLoop R fuel h pred succ oneSided rest cuts

/-- `find_balanced_edge_cuts_memoization` (gerrychain/tree.py:351-424) -/
def cutsMemoization {S : Type} (R : Rand S) (fuel : ℕ) (h : PopGraph V) (oneSided : Bool) : M S (List (Cut V)) := do
  let root ← R.choice ((iter h.graph.nodes).filter (fun x => h.graph.degree x > 1))
  let pred := predecessors h.graph root
  let succ := successors h.graph root
  let pops ← M.lift (calcPops fuel succ root h.population)
  memoLoop R fuel h pred succ oneSided pops.entries []

end GC

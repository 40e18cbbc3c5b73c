import Verif.Model.Bipartition

/-!
# What a `FrozenGraph` and a `SubgraphView` remember (gerrychain/graph/graph.py, gerrychain/partition/subgraphs.py)

The rest of the model reads nodes, edges, neighbours and attributes straight from the graph.  Here the caches between are modelled.
-/

set_option linter.unusedSectionVars false
set_option autoImplicit false

namespace GC

variable {V W P S : Type} [LinearOrder V] [DecidableEq P]

/-- A call of a method decorated with `functools.lru_cache(cap)` (graph/graph.py:559, 571, 575), most recently used entries first.  A result that is remembered is
returned and moved to the front; otherwise it is computed and remembered, the least recently used entry being dropped when there are more than `cap`; an
exception is not remembered. -/
def lruCall {K A : Type} [DecidableEq K] (cap : ℕ) (compute : K → Py A) (k : K) (cache : List (K × A)) : Py A × List (K × A) :=
  match cache.find? (fun e => e.1 = k) with
  | some e => (.ok e.2, e :: cache.filter (fun e => e.1 ≠ k))
  | none => match compute k with
    | .error e => (.error e, cache)
    | .ok a => (.ok a, ((k, a) :: cache).take cap)

/-- A `FrozenGraph` (graph/graph.py:508-580): the graph of the user, which is frozen in place and not copied, its node attributes, and the caches of `neighbors`,
`degree`, `lookup` and `node_indices`.  In python each cache of a method is shared by all frozen graphs, whose identity is part of the key. -/
structure FrozenSt (V W : Type) where
  graph : Graph V
  attrs : V → Dict String W
  nbrs : List (V × Finset V)
  degs : List (V × ℕ)
  look : List ((V × String) × W)
  indices : Option (Finset V)

/-- `FrozenGraph(graph)` (graph/graph.py:529-543) -/
def FrozenSt.make (G : Graph V) (attrs : V → Dict String W) : FrozenSt V W := ⟨G, attrs, [], [], [], none⟩

/-- `tuple(self.graph.neighbors(n))` (graph/graph.py:561), without the order; `NetworkXError` for what is not a node -/
def freshNeighbors (G : Graph V) (n : V) : Py (Finset V) := if n ∈ G.nodes then .ok (G.neighbors n) else .error .networkXError

/-- `self.graph.degree(n)` (graph/graph.py:573).  For what is not a node the model raises; networkx returns an empty view. -/
def freshDegree (G : Graph V) (n : V) : Py ℕ := if n ∈ G.nodes then .ok (G.degree n) else .error .networkXError

/-- `self.graph.nodes[node][field]` (graph/graph.py:577) -/
def freshLookup (nodes : Finset V) (attrs : V → Dict String W) (k : V × String) : Py W :=
  if k.1 ∈ nodes then (attrs k.1).get k.2 else .error .keyError

/-- `FrozenGraph.neighbors` (graph/graph.py:559-561) -/
def frozenNeighbors (n : V) : M (FrozenSt V W) (Finset V) := fun s =>
  let r := lruCall 16384 (freshNeighbors s.graph) n s.nbrs
  (r.1, { s with nbrs := r.2 })

/-- `FrozenGraph.degree` (graph/graph.py:571-573) -/
def frozenDegree (n : V) : M (FrozenSt V W) ℕ := fun s =>
  let r := lruCall 16384 (freshDegree s.graph) n s.degs
  (r.1, { s with degs := r.2 })

/-- `FrozenGraph.lookup` (graph/graph.py:575-577) -/
def frozenLookup (n : V) (field : String) : M (FrozenSt V W) W := fun s =>
  let r := lruCall 65536 (freshLookup s.graph.nodes s.attrs) (n, field) s.look
  (r.1, { s with look := r.2 })

/-- `FrozenGraph.node_indices` (graph/graph.py:563-565), which is also what iterating over a frozen graph yields (line 557) -/
def frozenIndices : M (FrozenSt V W) (Finset V) := fun s =>
  let I := s.indices.getD s.graph.nodes
  (.ok I, { s with indices := some I })

/-- what can be done to a frozen graph between two uses: any method of it, assigning an attribute of a node, which `networkx.freeze` does not prevent, changing
the graph (`add_node`, `add_edge`, `remove_node`, …, `join`, `add_data`; graph/graph.py:538-540), which it prevents, and `graph.node_indices -= nodes`, which
changes the remembered set in place (tree.py:929 with 955, 1007 with 1049) -/
inductive FrozenOp (V W : Type) where
  | neighbors (n : V)
  | degree (n : V)
  | lookup (n : V) (field : String)
  | indices
  | assign (n : V) (field : String) (w : W)
  | change
  | shrink (nodes : Finset V)

/-- one of these operations (graph/graph.py:529-580), without its result -/
def FrozenOp.run (op : FrozenOp V W) (s : FrozenSt V W) : FrozenSt V W :=
  match op with
  | .neighbors n => (frozenNeighbors n s).2
  | .degree n => (frozenDegree n s).2
  | .lookup n f => (frozenLookup n f s).2
  | .indices => (frozenIndices s).2
  | .assign n f w => if n ∈ s.graph.nodes then { s with attrs := Function.update s.attrs n ((s.attrs n).set f w) } else s
  | .change => s
  | .shrink nodes => { s with indices := some (s.indices.getD s.graph.nodes \ nodes) }

/-! ### Districts from a frozen graph -/

/-- run a function that does not touch the remembered set of nodes (tree.py:1029, called with a subgraph) -/
def beside {A I : Type} (m : M S A) : M (I × S) A := fun s =>
  let r := m s.2
  (r.1, (s.1, r.2))

/-- the last two districts (gerrychain/tree.py:935-966, 1054-1085) when `graph` is a `FrozenGraph`: `remaining_nodes` is the remembered set `node_indices`, and
`remaining_nodes -= nodes` changes it -/
def lastTwoFrozen (method : Method V S) (G : Graph V) (pop : V → ℚ) (target eps : ℚ) (p q : P) (flips : Dict V P) : M (Finset V × S) (Dict V P) := do
  let s ← M.read
  let r ← beside (method (G.subgraph s.1) target eps false)
  let nodes ← M.lift (notNone r)
  let (flips, _) ← M.lift (assignPart pop target eps flips nodes p)
  M.modify (fun s => (s.1 \ nodes, s.2))
  let s ← M.read
  let (flips, _) ← M.lift (assignPart pop target eps flips s.1 q)
  pure flips

/-- the loop of `recursive_tree_part` (gerrychain/tree.py:1021-1085) when `graph` is a `FrozenGraph`, see `lastTwoFrozen` -/
def recursiveLoopFrozen (method : Method V S) (G : Graph V) (pop : V → ℚ) (target eps : ℚ) :
    List P → Dict V P → ℚ → M (Finset V × S) (Dict V P)
  | [], _, _ => M.raise .indexError
  | [_], _, _ => M.raise .indexError
  | [p, q], flips, _ => lastTwoFrozen method G pop target eps p q flips
  | part :: rest, flips, debt => do
    let (newTarget, newEps) ← M.lift (debtTarget target eps debt)
    let s ← M.read
    let r ← beside (method (G.subgraph s.1) newTarget newEps true)
    let nodes ← M.lift (notNone r)
    let (flips, partPop) ← M.lift (assignPart pop target eps flips nodes part)
    M.modify (fun s => (s.1 \ nodes, s.2))
    recursiveLoopFrozen method G pop target eps rest flips (debt + (partPop - target))

/-- `recursive_tree_part(graph, …)` (gerrychain/tree.py:971-1085) for a `FrozenGraph`; the state contains its `node_indices` -/
def recursiveTreePartFrozen (method : Method V S) (G : Graph V) (parts : List P) (pop : V → ℚ) (target eps : ℚ) : M (Finset V × S) (Dict V P) :=
  recursiveLoopFrozen method G pop target eps parts Dict.empty 0

/-- `Partition.from_random_assignment(graph, …)` for a `FrozenGraph` (partition/partition.py:67-120, 127-135) up to the test that the keys of the assignment are the
nodes, which are read from `node_indices` (graph/graph.py:557) -/
def fromRandomFrozen (method : Method V S) (G : Graph V) (pop : V → ℚ) (n : ℕ) (eps : ℚ) : M (Finset V × S) (Dict V ℕ) := do
  let s ← M.read
  let ideal ← M.lift (if n = 0 then .error .zeroDivision else .ok ((∑ v ∈ s.1, pop v) / (n : ℚ)))
  let d ← recursiveTreePartFrozen method G (List.range n) pop ideal eps
  let s ← M.read
  if d.keys.toFinset ≠ s.1 then M.raise .keyError else pure d

/-! ### Subgraphs -/

/-- `SubgraphView.__getitem__` (partition/subgraphs.py:36-48) with its cache -/
def subgraphItem (G : Graph V) (parts : Dict P (Finset V)) (part : P) : M (Dict P (Graph V)) (Graph V) := fun cache =>
  match cache.get? part with
  | some H => (.ok H, cache)
  | none => match parts.get part with
    | .error e => (.error e, cache)
    | .ok s => (.ok (G.subgraph s), cache.set part (G.subgraph s))

/-- the loop of `SubgraphView.items` (partition/subgraphs.py:54-56) -/
def subgraphList (G : Graph V) (parts : Dict P (Finset V)) : List P → M (Dict P (Graph V)) (List (P × Graph V))
  | [] => pure []
  | p :: ps => do
    let H ← subgraphItem G parts p
    let r ← subgraphList G parts ps
    pure ((p, H) :: r)

/-- `SubgraphView.items` (partition/subgraphs.py:54-56): all parts with their subgraphs -/
def subgraphItems (G : Graph V) (parts : Dict P (Finset V)) : M (Dict P (Graph V)) (List (P × Graph V)) := subgraphList G parts parts.keys

end GC

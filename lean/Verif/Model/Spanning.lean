import Verif.Model.Bipartition

/-!
# Random spanning trees

Model of `uniform_spanning_tree` (Wilson's algorithm) and `random_spanning_tree` (Kruskal's algorithm on random weights)
of gerrychain/tree.py.
-/

set_option linter.unusedSectionVars false
set_option autoImplicit false

namespace GC

variable {V : Type} [LinearOrder V] {S : Type}

/-- The random walk `while u not in tree_nodes` (gerrychain/tree.py:118-120).  The walk may be endless; the model gives up
with `outOfFuel` when the fuel is used up. -/
def wilsonWalk (R : Rand S) (G : Graph V) (tree : Finset V) : ℕ → Dict V (Option V) → V → M S (Dict V (Option V))
  | 0, _, _ => M.raise .outOfFuel
  | n + 1, next, u =>
    if u ∈ tree then pure next
    else do
      let v ← R.choice (iter (G.neighbors u))
      wilsonWalk R G tree n (next.set u (some v)) v

/-- The loop that adds the loop-erased walk to the tree (gerrychain/tree.py:123-125).  Simplified: when `next_node[u]` is
`None` the code would go on with `u = None` and raise `KeyError` one step later; the model raises `KeyError` at once.  (It
never happens, see C41.) -/
def wilsonAttach (next : Dict V (Option V)) : ℕ → Finset V → V → Py (Finset V)
  | 0, _, _ => .error .outOfFuel
  | n + 1, tree, u =>
    if u ∈ tree then .ok tree
    else
      match next.get u with
      | .ok (some v) => wilsonAttach next n (insert u tree) v
      | .ok none => .error .keyError
      | .error e => .error e

/-- The loop over the nodes (gerrychain/tree.py:116-125).  The second loop adds a node in every round, so it ends after at
most `|V| + 1` rounds. -/
def wilsonLoop (R : Rand S) (G : Graph V) (fuel : ℕ) :
    List V → Finset V → Dict V (Option V) → M S (Finset V × Dict V (Option V))
  | [], tree, next => pure (tree, next)
  | node :: rest, tree, next => do
    let next' ← wilsonWalk R G tree fuel next node
    let tree' ← M.lift (wilsonAttach next' (G.nodes.card + 1) tree node)
    wilsonLoop R G fuel rest tree' next'

/-- `G.add_edge(u, v)` of networkx: adds the end points; an edge that is already there is not added again -/
def Graph.addEdge (G : Graph V) (u v : V) : Graph V :=
  ⟨insert v (insert u G.nodes), if G.Adj u v then G.edges else insert (u, v) G.edges⟩

/-- the construction of the result from `next_node` (gerrychain/tree.py:127-130) -/
def wilsonGraph (next : Dict V (Option V)) : List V → Graph V → Py (Graph V)
  | [], T => .ok T
  | node :: rest, T =>
    match next.get node with
    | .ok (some v) => wilsonGraph next rest (T.addEdge node v)
    | .ok none => wilsonGraph next rest T
    | .error e => .error e

/-- `uniform_spanning_tree` (gerrychain/tree.py:97-132).  The result has no edge attribute `random_weight`.  Nodes and
neighbours are offered to `choice` in increasing order; `choice` is arbitrary, so the order does not matter. -/
def uniformSpanningTree (R : Rand S) (fuel : ℕ) (G : Graph V) : M S (WTree V) := do
  let root ← R.choice (iter G.nodes)
  let r ← wilsonLoop R G fuel (iter G.nodes) {root} (Dict.empty.set root none)
  let T ← M.lift (wilsonGraph r.2 (iter r.1) ⟨∅, ∅⟩)
  pure ⟨T, fun _ _ => none⟩

/-- the condition for a surcharge (gerrychain/tree.py:82-86): the attributes differ or one of them is `None`.
`attr key v` is `graph.nodes[v][key]`.  Simplified: every node has the attribute (otherwise the code raises `KeyError`). -/
def crosses {A : Type} [DecidableEq A] (attr : String → V → Option A) (key : String) (e : V × V) : Bool :=
  decide (attr key e.1 ≠ attr key e.2 ∨ attr key e.1 = none ∨ attr key e.2 = none)

/-- the weight of an edge: a random number plus the surcharges (gerrychain/tree.py:79-87) -/
def surcharged {A : Type} [DecidableEq A] (attr : String → V → Option A) (surcharge : Dict String ℚ) (x : ℚ) (e : V × V) : ℚ :=
  surcharge.entries.foldl (fun w kv => if crosses attr kv.1 e then w + kv.2 else w) x

/-- the loop over the edges (gerrychain/tree.py:78-89): every edge with its `random_weight` -/
def drawWeights {A : Type} [DecidableEq A] (R : Rand S) (attr : String → V → Option A) (surcharge : Dict String ℚ) :
    List (V × V) → M S (List (ℚ × (V × V)))
  | [] => pure []
  | e :: es => do
    let x ← R.random
    let rest ← drawWeights R attr surcharge es
    pure ((surcharged attr surcharge x e, e) :: rest)

/-- One round of networkx's `kruskal_mst_edges`: the edge is taken if its ends are in different sets of the union-find
structure, and the two sets are united.  Simplified: the union-find structure is a map from nodes to representatives. -/
def kruskalStep {V : Type} [DecidableEq V] (st : (V → V) × Finset (V × V)) (e : V × V) : (V → V) × Finset (V × V) :=
  if st.1 e.1 = st.1 e.2 then st
  else (fun x => if st.1 x = st.1 e.2 then st.1 e.1 else st.1 x, insert e st.2)

/-- networkx's `kruskal_mst_edges`: the edges in the order of their weights (python's stable sort) -/
def kruskal (l : List (ℚ × (V × V))) : Finset (V × V) :=
  (((l.insertionSort (fun a b => a.1 ≤ b.1)).map Prod.snd).foldl kruskalStep (id, ∅)).2

/-- the `random_weight` of an edge, in either orientation -/
def weightOf (l : List (ℚ × (V × V))) (u v : V) : Option ℚ :=
  (l.find? (fun p => decide (p.2 = (u, v) ∨ p.2 = (v, u)))).map Prod.fst

/-- `random_spanning_tree` (gerrychain/tree.py:60-94); `minimum_spanning_tree` keeps all nodes and the attributes of the
edges it takes.  Simplified: the weights are also left behind as attributes of the input graph, which nobody reads before
they are drawn again. -/
def randomSpanningTree {A : Type} [DecidableEq A] (R : Rand S) (attr : String → V → Option A) (surcharge : Option (Dict String ℚ))
    (G : Graph V) : M S (WTree V) := do
  let l ← drawWeights R attr (surcharge.getD Dict.empty) (iterE G.edges)
  pure ⟨⟨G.nodes, kruskal l⟩, weightOf l⟩

end GC

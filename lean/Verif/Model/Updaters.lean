import Verif.Model.Assignment
import Mathlib.Algebra.BigOperators.Group.Finset.Basic
import Mathlib.Algebra.Order.Monoid.Unbundled.WithTop
import Mathlib.Algebra.Order.Ring.Rat

/-!
# Updaters: the pure parts of `gerrychain/updaters/*.py`

The stateful parts (which value is looked up on which partition, caching) are in `Verif.Model.Heap`.
-/

set_option autoImplicit false

namespace GC

variable {V P : Type} [LinearOrder V] [DecidableEq P]

/-- A python number that may be NaN: `⊥` is NaN (`NaN + x = NaN`), other values are exact rationals (simplification:
python floats are modelled without rounding). -/
abbrev Num := WithBot ℚ

/-- `a - b` on numbers that may be NaN. -/
def Num.sub : Num → Num → Num
  | some x, some y => some (x - y)
  | _, _ => ⊥

/-- Graph with the node and edge attributes that the modelled updaters read (networkx attribute dictionaries;
gerrychain/graph/graph.py:287 `lookup`).  Simplified: attributes are total functions, so the `KeyError` for a missing
attribute is not modelled. `sharedPerim` is read with sorted edges only. -/
structure GraphData (V : Type) where
  graph : Graph V
  /-- numeric node columns, `graph.nodes[node][field]` -/
  col : String → V → Num
  /-- `graph.nodes[node]["boundary_node"]` -/
  boundaryNode : V → Bool
  /-- `graph.nodes[node]["boundary_perim"]` -/
  boundaryPerim : V → ℚ
  /-- `graph.edges[edge]["shared_perim"]` -/
  sharedPerim : V × V → ℚ
  /-- string-valued node columns (county names, region names) -/
  region : String → V → String

/-- `Partition.crosses_parts(edge)` (partition/partition.py:187-195).  The `KeyError` for unassigned nodes is not
modelled: `Partition._first_time` (partition.py:135-136) guarantees that every graph node is assigned. -/
def crossesParts (m : Dict V P) (e : V × V) : Bool := m.get? e.1 ≠ m.get? e.2

/-- `neighbor_flips(partition)` (updaters/flows.py:6-19). -/
def neighborFlips (G : Graph V) (flips : Dict V P) : Finset (V × V) :=
  flips.keys.toFinset.biUnion (fun n => (G.neighbors n).image (fun m => sortPair (n, m)))

/-- `cut_edges` without parent (updaters/cut_edges.py:109-114), also the set in `initialize_cut_edges` (68-72). -/
def cutEdgesInit (G : Graph V) (m : Dict V P) : Finset (V × V) :=
  (G.edges.filter (fun e => crossesParts m e)).image sortPair

/-- `new_cuts(partition)` (updaters/cut_edges.py:28-40). -/
def newCuts (G : Graph V) (flips m : Dict V P) : Finset (V × V) :=
  (neighborFlips G flips).filter (fun e => crossesParts m e)

/-- `obsolete_cuts(partition)` (updaters/cut_edges.py:43-56). -/
def obsoleteCuts (G : Graph V) (flips old m : Dict V P) : Finset (V × V) :=
  (neighborFlips G flips).filter (fun e => crossesParts old e && !crossesParts m e)

/-- `cut_edges` with parent (updaters/cut_edges.py:118-120). -/
def cutEdgesStep (G : Graph V) (flips old m : Dict V P) (previous : Finset (V × V)) : Finset (V × V) :=
  (previous ∪ newCuts G flips m) \ obsoleteCuts G flips old m

/-- `put_edges_into_parts(edges, assignment)` (updaters/cut_edges.py:6-25). -/
def putEdgesIntoParts (edges : Finset (V × V)) (m : Dict V P) : Py (Dict P (Finset (V × V))) :=
  (iterE edges).foldlM (fun byPart e => do
    let p ← m.get e.1
    let q ← m.get e.2
    return (byPart.modifyD p ∅ (insert e)).modifyD q ∅ (insert e)) Dict.empty

/-- One iteration of the loop of `compute_edge_flows` (updaters/flows.py:123-153). -/
def edgeFlowStep (old new : Dict V P) (ef : Dict P (Flow (V × V))) (e : V × V) : Py (Dict P (Flow (V × V))) := do
  let oldSource ← old.get e.1
  let oldTarget ← old.get e.2
  let newSource ← new.get e.1
  let newTarget ← new.get e.2
  let cut := newSource ≠ newTarget
  let wasCut := oldSource ≠ oldTarget
  if ¬ cut ∧ wasCut then
    return (ef.modifyD oldTarget Flow.create (Flow.addOut e)).modifyD oldSource Flow.create (Flow.addOut e)
  else if cut ∧ ¬ wasCut then
    return (ef.modifyD newTarget Flow.create (Flow.addIn e)).modifyD newSource Flow.create (Flow.addIn e)
  else if cut ∧ wasCut then
    let noLonger := [oldTarget, oldSource].filter (fun p => p ≠ newTarget ∧ p ≠ newSource)
    let newly := [newTarget, newSource].filter (fun p => p ≠ oldTarget ∧ p ≠ oldSource)
    let ef := noLonger.foldl (fun ef p => ef.modifyD p Flow.create (Flow.addOut e)) ef
    return newly.foldl (fun ef p => ef.modifyD p Flow.create (Flow.addIn e)) ef
  else return ef

/-- `compute_edge_flows(partition)` (updaters/flows.py:109-154). -/
def computeEdgeFlows (G : Graph V) (flips old new : Dict V P) : Py (Dict P (Flow (V × V))) :=
  (iterE (neighborFlips G flips)).foldlM (edgeFlowStep old new) Dict.empty

/-- `Tally._get_tally_from_node` (updaters/tally.py:169-170). -/
def tallyFromNode (D : GraphData V) (fields : List String) (v : V) : Num :=
  (fields.map (fun f => D.col f v)).sum

/-- `compute_out_flow` / `compute_in_flow` (updaters/tally.py:173-206) and the sums in `update_tally` (59-60). -/
def sumOver (val : V → Num) (s : Finset V) : Num := s.sum val

/-- `Tally._initialize_tally` (updaters/tally.py:118-141) and `initialize_tally` of `DataTally` (37-55): NaN is skipped
with a warning. -/
def tallyInit (val : V → Num) (m : Dict V P) : Dict P Num :=
  m.entries.foldl (fun t e => if val e.1 = ⊥ then t else t.modifyD e.2 0 (· + val e.1)) Dict.empty

/-- `Tally._update_tally` (updaters/tally.py:143-167): `old - out + in`, `KeyError` when the parent's tally has no
entry for the part. -/
def tallyStep (val : V → Num) (flows : Dict P (Flow V)) (previous : Dict P Num) : Py (Dict P Num) :=
  flows.entries.foldlM (fun t e => do
    let old ← previous.get e.1
    return t.set e.1 (Num.sub old (sumOver val e.2.out) + sumOver val e.2.inn)) previous

/-- `update_tally` of `DataTally` under `on_flow` (updaters/tally.py:57-61, flows.py:95-102): `previous + in - out`. -/
def dataTallyStep (val : V → Num) (flows : Dict P (Flow V)) (previous : Dict P Num) : Py (Dict P Num) :=
  flows.entries.foldlM (fun t e => do
    let old ← previous.get e.1
    return t.set e.1 (Num.sub (old + sumOver val e.2.inn) (sumOver val e.2.out))) previous

/-- `boundary_nodes` without parent (updaters/compactness.py:21-25). -/
def boundaryNodesInit (D : GraphData V) : Finset V := D.graph.nodes.filter (fun v => D.boundaryNode v)

/-- `initialize_exterior_boundaries_as_a_set` (updaters/compactness.py:37-40). -/
def extSetInit (bn : Finset V) (m : Dict V P) : Py (Dict P (Finset V)) :=
  (iter bn).foldlM (fun d v => do
    let p ← m.get v
    return d.modifyD p ∅ (insert v)) Dict.empty

/-- `exterior_boundaries_as_a_set` on one part (updaters/compactness.py:66-67). -/
def extSetPart (bn previous inflow outflow : Finset V) : Finset V := (previous ∪ (inflow ∩ bn)) \ outflow

/-- `initialize_exterior_boundaries` (updaters/compactness.py:79-84). -/
def extInit (D : GraphData V) (bn : Finset V) (m : Dict V P) : Py (Dict P ℚ) :=
  (iter bn).foldlM (fun d v => do
    let p ← m.get v
    return d.modifyD p 0 (· + D.boundaryPerim v)) Dict.empty

/-- `exterior_boundaries` on one part (updaters/compactness.py:108-117). -/
def extPart (D : GraphData V) (bn : Finset V) (previous : ℚ) (inflow outflow : Finset V) : ℚ :=
  previous + (inflow ∩ bn).sum D.boundaryPerim - (outflow ∩ bn).sum D.boundaryPerim

/-- `interior_boundaries` on one part (updaters/compactness.py:162-168). -/
def intPart (D : GraphData V) (previous : ℚ) (newEdges oldEdges : Finset (V × V)) : ℚ :=
  previous + newEdges.sum D.sharedPerim - oldEdges.sum D.sharedPerim

/-- `class CountySplit(Enum)` (updaters/county_splits.py:20-31). -/
inductive CountySplit | notSplit | newSplit | oldSplit
  deriving DecidableEq, Repr

/-- `CountyInfo = namedtuple("CountyInfo", "split nodes contains")` (updaters/county_splits.py:6). -/
structure CountyInfo (V P : Type) where
  split : CountySplit
  nodes : List V
  contains : Finset P
  deriving DecidableEq

/-- `compute_county_splits` without parent (updaters/county_splits.py:81-99). -/
def countySplitsInit (nodes : Finset V) (county : V → String) (m : Dict V P) : Py (Dict String (CountyInfo V P)) :=
  (iter nodes).foldlM (fun d v => do
    let part ← m.get v
    let old := (d.get? (county v)).getD ⟨.notSplit, [], ∅⟩
    let seen := insert part old.contains
    let split := if seen.card > 1 then .oldSplit else old.split
    return d.set (county v) ⟨split, old.nodes ++ [v], seen⟩) Dict.empty

/-- `set(partition.assignment.mapping[node] for node in nodes)` (updaters/county_splits.py:105). -/
def seenParts (m : Dict V P) (nodes : List V) : Py (Finset P) :=
  nodes.foldlM (fun s v => do let p ← m.get v; return insert p s) ∅

/-- `compute_county_splits` with parent (updaters/county_splits.py:101-117). -/
def countySplitsStep (m : Dict V P) (previous : Dict String (CountyInfo V P)) : Py (Dict String (CountyInfo V P)) :=
  previous.entries.foldlM (fun d e => do
    let seen ← seenParts m e.2.nodes
    let split := if seen.card > 1 then (if e.2.split ≠ .oldSplit then .newSplit else .oldSplit) else .notSplit
    return d.set e.1 ⟨split, e.2.nodes, seen⟩) Dict.empty

end GC

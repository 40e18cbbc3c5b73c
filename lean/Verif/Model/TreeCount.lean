import Verif.Model.Updaters
import Mathlib.LinearAlgebra.Matrix.Determinant.Basic
import Mathlib.Algebra.Order.Ring.Rat

/-!
# The number of spanning trees of the districts

Model of `gerrychain/updaters/spanning_trees.py`.  Exact arithmetic instead of floating point numbers: `math.exp(slogdet(L)[1])` is the absolute
value of the determinant (0 for a singular matrix, whose logarithm is minus infinity).
-/

set_option linter.unusedSectionVars false
set_option autoImplicit false

namespace GC

variable {V P : Type} [LinearOrder V] [DecidableEq P]

/-- An entry of networkx's adjacency matrix: the edge attribute `weight`, 1 if the edge does not have it, 0 if there is no edge
(`networkx.laplacian_matrix`, updaters/spanning_trees.py:28). -/
def adjEntry (G : Graph V) (weight : V × V → Option ℚ) (u v : V) : ℚ :=
  if (u, v) ∈ G.edges then (weight (u, v)).getD 1
  else if (v, u) ∈ G.edges then (weight (v, u)).getD 1
  else 0

/-- `networkx.laplacian_matrix(graph).todense()` (updaters/spanning_trees.py:28-29): the row sums of the adjacency matrix on the diagonal minus
the adjacency matrix; `l` lists the nodes. -/
def laplacianMatrix (G : Graph V) (weight : V × V → Option ℚ) (l : List V) : Matrix (Fin l.length) (Fin l.length) ℚ :=
  fun i j => (if i = j then ∑ k, adjEntry G weight (l.get i) (l.get k) else 0) - adjEntry G weight (l.get i) (l.get j)

/-- `math.exp(numpy.linalg.slogdet(L)[1])` (updaters/spanning_trees.py:30) for a matrix with this determinant; `math.exp` raises `OverflowError`
when the result exceeds the floating point range. -/
def expSlogdet (det : ℚ) : Py ℚ := if 2 ^ 1024 ≤ |det| then .error .overflowError else .ok |det|

/-- `_num_spanning_trees_in_district` (updaters/spanning_trees.py:11-30) for the subgraph `G` with nodes `l`.  networkx raises for a graph without
nodes (`NetworkXError`, here `pointlessConcept`).  `numpy.delete(numpy.delete(laplacian, 0, 0), 1, 1)` removes row 0 and column 1; a matrix with a
single column has no column 1, which is an `IndexError`. -/
def treesInDistrict (G : Graph V) (weight : V × V → Option ℚ) : List V → Py ℚ
  | [] => .error .pointlessConcept
  | [_] => .error .indexError
  | a :: b :: rest =>
    expSlogdet ((laplacianMatrix G weight (a :: b :: rest)).submatrix (Fin.succAbove (0 : Fin (rest.length + 2))) (Fin.succAbove 1)).det

/-- `num_spanning_trees` (updaters/spanning_trees.py:33-41).  The nodes of a district are listed in increasing order; the order does not matter
(C72). -/
def numSpanningTrees (G : Graph V) (weight : V × V → Option ℚ) (parts : Dict P (Finset V)) : Py (Dict P ℚ) :=
  parts.entries.foldlM (fun d e => do
    let n ← treesInDistrict (G.subgraph e.2) weight (iter (G.subgraph e.2).nodes)
    return d.set e.1 n) Dict.empty

end GC

import Verif.Model.Recom
import Verif.Model.TreeCount
import Mathlib.Data.Real.Sqrt

/-!
# Spectral ReCom

Model of `gerrychain/proposals/spectral_proposals.py`.  Exact real arithmetic instead of floating point numbers.
-/

set_option linter.unusedSectionVars false
set_option autoImplicit false

namespace GC

variable {V P S : Type} [LinearOrder V] [LinearOrder P]

/-- The edge attribute `weight` of the graph (proposals/spectral_proposals.py:36), `none` if an edge does not have it.  networkx's subgraphs are
views: they share the dictionaries of attributes with the graph, so there is one such function for the graph and all its subgraphs. -/
abbrev EdgeWeights (V : Type) := V × V → Option ℚ

/-- a computation that only uses the random generator (proposals/spectral_proposals.py:36, 91) -/
def M.onRand {α : Type} (m : M S α) : M (EdgeWeights V × S) α := fun s => ((m s.2).1, (s.1, (m s.2).2))

/-- `for edge in graph.edge_indices: graph.edges[edge]["weight"] = random.random()` (proposals/spectral_proposals.py:35-36) -/
def spectralWeights (R : Rand S) : List (V × V) → M (EdgeWeights V × S) Unit
  | [] => pure ()
  | e :: l => do
    let x ← M.onRand R.random
    M.modify (fun s => (Function.update s.1 e (some x), s.2))
    spectralWeights R l

/-- `nx.laplacian_matrix(graph).todense()` (proposals/spectral_proposals.py:42) as a matrix of real numbers -/
noncomputable def realLaplacian (G : Graph V) (weight : EdgeWeights V) (l : List V) : Matrix (Fin l.length) (Fin l.length) ℝ :=
  fun i j => ((laplacianMatrix G weight l i j : ℚ) : ℝ)

/-- the diagonal matrix `DH` of networkx's `normalized_laplacian_matrix`: one over the square root of the row sums of the adjacency matrix,
0 where this is infinite (called in proposals/spectral_proposals.py:39) -/
noncomputable def invSqrtDegree (G : Graph V) (weight : EdgeWeights V) (l : List V) (i : Fin l.length) : ℝ :=
  if ∑ k, adjEntry G weight (l.get i) (l.get k) = 0 then 0
  else 1 / Real.sqrt ((∑ k, adjEntry G weight (l.get i) (l.get k) : ℚ) : ℝ)

/-- `nx.normalized_laplacian_matrix(graph).todense()` (proposals/spectral_proposals.py:39): `DH @ (L @ DH)` -/
noncomputable def normalizedLaplacian (G : Graph V) (weight : EdgeWeights V) (l : List V) : Matrix (Fin l.length) (Fin l.length) ℝ :=
  fun i j => invSqrtDegree G weight l i * (realLaplacian G weight l i j * invSqrtDegree G weight l j)

/-- `LAP` (proposals/spectral_proposals.py:38-42) -/
noncomputable def spectralMatrix (normalized : Bool) (G : Graph V) (weight : EdgeWeights V) (l : List V) :
    Matrix (Fin l.length) (Fin l.length) ℝ :=
  if normalized then normalizedLaplacian G weight l else realLaplacian G weight l

/-- `numpy.linalg.eigh(...)[1]` (proposals/spectral_proposals.py:44): the matrix whose columns are the eigenvectors.  Any function; what it promises
is `IsEigh`.  `LinAlgError` (no convergence) is not modelled. -/
abbrev Eigh := (n : ℕ) → Matrix (Fin n) (Fin n) ℝ → Matrix (Fin n) (Fin n) ℝ

/-- `clusters` (proposals/spectral_proposals.py:45-50) for the nodes `l` and the matrix of eigenvectors `U`: nodes with a positive entry in column 1
get `part_labels[True]`, the second label, the others the first one.  The nodes of a graph are distinct, so the dictionary comprehension does not
overwrite entries. -/
noncomputable def clusters (l : List V) (h : 1 < l.length) (U : Matrix (Fin l.length) (Fin l.length) ℝ) (labels : P × P) : Dict V P :=
  ⟨(List.finRange l.length).map (fun x => (l.get x, if U x ⟨1, h⟩ > 0 then labels.2 else labels.1))⟩

/-- `spectral_cut` (proposals/spectral_proposals.py:9-52).  `randomWeights` is `weight_type == "random"`, `normalized` is
`lap_type == "normalized"`.  networkx raises for a graph without nodes (`NetworkXError`, here `pointlessConcept`); the matrix of eigenvectors of a
single node has no column 1 (`IndexError`). -/
noncomputable def spectralCut (R : Rand S) (eigh : Eigh) (G : Graph V) (labels : P × P) (randomWeights normalized : Bool) :
    M (EdgeWeights V × S) (Dict V P) := do
  let _ ← (if randomWeights then spectralWeights R (iterE G.edges) else pure () : M (EdgeWeights V × S) Unit)
  let s ← (M.read : M (EdgeWeights V × S) (EdgeWeights V × S))
  if h : 1 < (iter G.nodes).length then
    pure (clusters (iter G.nodes) h (eigh _ (spectralMatrix normalized G s.1 (iter G.nodes))) labels)
  else if (iter G.nodes).length = 1 then M.raise .indexError
  else M.raise .pointlessConcept

/-- The flips of `spectral_recom` (proposals/spectral_proposals.py:91-101); `cuts` is `partition["cut_edges"]`. -/
noncomputable def spectralFlips (R : Rand S) (eigh : Eigh) (randomWeights normalized : Bool) (G : Graph V) (a : Assignment V P)
    (cuts : Finset (V × V)) : M (EdgeWeights V × S) (Dict V P) := do
  let edge ← M.onRand (R.choice (iterE cuts))
  let pq ← M.lift (endLabels a edge)
  let s ← M.lift (mergedNodes a pq.1 pq.2)
  spectralCut R eigh (G.subgraph s) pq randomWeights normalized

/-- `spectral_recom` (proposals/spectral_proposals.py:55-103) as a proposal on partition objects -/
noncomputable def spectralRecom (R : Rand S) (eigh : Eigh) (randomWeights normalized : Bool) (limit : ℕ) (st : ℕ) :
    M (World V P (EdgeWeights V × S)) ℕ := do
  let v ← viewObj st
  let w ← (M.read : M (World V P (EdgeWeights V × S)) (World V P (EdgeWeights V × S)))
  let x ← lookupKey .cutEdges limit st
  let cuts ← M.lift x.asEdgeSet
  let flips ← M.onRest (spectralFlips R eigh randomWeights normalized w.1.frame.data.graph v.assignment cuts)
  flipObj st flips

end GC

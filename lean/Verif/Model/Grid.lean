import Verif.Model.Heap
import Mathlib.Data.Prod.Lex
import Mathlib.Data.Finset.Prod

/-!
# Grid graphs

Model of `gerrychain/grid.py`.  Dimensions are natural numbers; the nodes `(i, j)` are compared lexicographically, like python tuples.
-/

set_option linter.unusedSectionVars false
set_option autoImplicit false

namespace GC

/-- a node of a grid graph, `(i, j)` -/
abbrev Cell := ℕ ×ₗ ℕ

/-- the node `(i, j)` -/
def cell (i j : ℕ) : Cell := toLex (i, j)

namespace Cell
/-- `node[0]` -/
def x (c : Cell) : ℕ := (ofLex c).1
/-- `node[1]` -/
def y (c : Cell) : ℕ := (ofLex c).2
end Cell

/-- nodes of `networkx.generators.lattice.grid_2d_graph(m, n)` (grid.py:159) -/
def gridNodes (m n : ℕ) : Finset Cell := (Finset.range m ×ˢ Finset.range n).image toLex

/-- edges of `grid_2d_graph(m, n)` between consecutive rows (grid.py:159) -/
def gridVertical (m n : ℕ) : Finset (Cell × Cell) :=
  (Finset.range (m - 1) ×ˢ Finset.range n).image (fun c => (cell c.1 c.2, cell (c.1 + 1) c.2))

/-- edges of `grid_2d_graph(m, n)` between consecutive columns (grid.py:159) -/
def gridHorizontal (m n : ℕ) : Finset (Cell × Cell) :=
  (Finset.range m ×ˢ Finset.range (n - 1)).image (fun c => (cell c.1 c.2, cell c.1 (c.2 + 1)))

/-- `nw_to_se` (grid.py:164-166) -/
def gridNwSe (m n : ℕ) : Finset (Cell × Cell) :=
  (Finset.range (m - 1) ×ˢ Finset.range (n - 1)).image (fun c => (cell c.1 c.2, cell (c.1 + 1) (c.2 + 1)))

/-- `sw_to_ne` (grid.py:167-169) -/
def gridSwNe (m n : ℕ) : Finset (Cell × Cell) :=
  (Finset.range (m - 1) ×ˢ Finset.range (n - 1)).image (fun c => (cell c.1 (c.2 + 1), cell (c.1 + 1) c.2))

/-- `diagonal_edges` (grid.py:170) -/
def gridDiagonal (m n : ℕ) : Finset (Cell × Cell) := gridNwSe m n ∪ gridSwNe m n

/-- The graph built by `create_grid_graph` (grid.py:142-173). -/
def gridGraph (m n : ℕ) (diagonals : Bool) : Graph Cell where
  nodes := gridNodes m n
  edges := gridVertical m n ∪ gridHorizontal m n ∪ if diagonals then gridDiagonal m n else ∅

/-- `get_boundary_perim` (grid.py:223-243); `i == m - 1` is written `i + 1 = m`. -/
def getBoundaryPerim (m n : ℕ) (c : Cell) : ℚ :=
  if (c.x = 0 ∧ c.y = 0) ∨ (c.x + 1 = m ∧ c.y = 0) ∨ (c.x = 0 ∧ c.y + 1 = n) ∨ (c.x + 1 = m ∧ c.y + 1 = n) then 2
  else if (c.x = 0 ∨ c.x + 1 = m) ∨ (c.y = 0 ∨ c.y + 1 = n) then 1
  else 0

/-- `boundary_node` of `tag_boundary_nodes` (grid.py:201-220) -/
def gridBoundaryNode (m n : ℕ) (c : Cell) : Bool := (c.x = 0 ∨ c.x + 1 = m) ∨ (c.y = 0 ∨ c.y + 1 = n)

/-- `create_grid_graph` (grid.py:142-181) with its attributes.  `boundary_perim` is missing on inner nodes, but is only read of boundary nodes
(updaters/cut_edges.py, compactness.py); here it is 0 for them.  `shared_perim` is 1 and then 0 on diagonal edges. -/
def gridData (m n : ℕ) (diagonals : Bool) : GraphData Cell where
  graph := gridGraph m n diagonals
  col field _ := if field = "population" ∨ field = "area" then ((1 : ℚ) : Num) else ⊥
  boundaryNode := gridBoundaryNode m n
  boundaryPerim := getBoundaryPerim m n
  sharedPerim e := if diagonals && (e ∈ gridDiagonal m n ∨ (e.2, e.1) ∈ gridDiagonal m n) then 0 else 1
  region _ _ := ""

/-- `color_half` (grid.py:246-264) -/
def colorHalf (c : Cell) (threshold : ℕ) : ℕ := if c.x ≤ threshold then 0 else 1

/-- `color_quadrants` (grid.py:267-288) -/
def colorQuadrants (c : Cell) (t0 t1 : ℕ) : ℕ :=
  let xColor := if c.x < t0 then 0 else 1
  let yColor := if c.y < t1 then 0 else 2
  xColor + yColor

/-- The assignment `Grid((m, n))` makes when none is given (grid.py:101-105). -/
def gridAssignment (m n : ℕ) : Dict Cell ℕ :=
  ⟨(iter (gridNodes m n)).map (fun c => (c, colorQuadrants c (m / 2) (n / 2)))⟩

/-- `as_list_of_lists` (grid.py:129-139) of a grid whose assignment has the mapping `mapping` -/
def asListOfLists {P : Type} (m n : ℕ) (mapping : Dict Cell P) : Py (List (List P)) :=
  (List.range n).mapM (fun j => (List.range m).mapM (fun i => mapping.get (cell i j)))

end GC

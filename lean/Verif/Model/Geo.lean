import Verif.Model.Attributes
import Verif.Model.Updaters

/-!
# Graphs from geometries: model of gerrychain/graph/adjacency.py and `Graph.from_geodataframe` (gerrychain/graph/graph.py)

What shapely computes about the polygons is an input.
-/

set_option linter.unusedSectionVars false
set_option autoImplicit false

namespace GC

variable {V : Type} [LinearOrder V]

/-- a `GeoSeries` of polygons, as far as the code asks shapely about it.  The index labels `ids` are distinct. -/
structure Geometries (V : Type) where
  ids : Finset V
  /-- `geometry.is_empty` -/
  isEmpty : V → Bool
  /-- `explain_validity(geometry) == "Valid Geometry"` -/
  valid : V → Bool
  /-- the labels of `tree.query(geometry)` -/
  query : V → List V
  /-- `geometries[i].intersection(geometries[j]).is_empty` -/
  interEmpty : V → V → Bool
  /-- `geometries[i].intersection(geometries[j]).length` -/
  interLength : V → V → ℚ
  /-- `geometries[i].boundary.length` -/
  length : V → ℚ
  /-- `geometries[i].area` -/
  area : V → ℚ
  /-- whether the boundary of the polygon meets the boundary of the union of all -/
  onOuter : V → Bool

/-- `neighboring_geometries` (graph/adjacency.py:47-69), for one polygon -/
def Geometries.neighboring (geo : Geometries V) (i : V) : List V :=
  (geo.query i).filter (fun p => !geo.isEmpty p && decide (p ≠ i))

/-- `queen(geometries)` (graph/adjacency.py:72-87, 119-136): polygon -> neighbour -> `shared_perim`.  The warning for overlaps is modelled in Model/Warnings. -/
def queen (geo : Geometries V) : Dict V (Dict V ℚ) :=
  (iter geo.ids).foldl (fun d i => d.set i
    (((geo.neighboring i).filter (fun j => !geo.interEmpty i j)).foldl (fun e j => e.set j (geo.interLength i j)) Dict.empty)) Dict.empty

/-- `rook(geometries)` (graph/adjacency.py:139-150) -/
def rook (geo : Geometries V) : Dict V (Dict V ℚ) :=
  ⟨(queen geo).entries.map (fun e => (e.1, ⟨e.2.entries.filter (fun x => decide (0 < x.2))⟩))⟩

/-- `neighbors(df, adjacency)` (graph/adjacency.py:17-24) -/
def geoNeighbors (geo : Geometries V) (adjacency : String) : Py (Dict V (Dict V ℚ)) :=
  if adjacency = "rook" then .ok (rook geo) else if adjacency = "queen" then .ok (queen geo) else .error .valueError

/-- `cls(adjacencies)` (graph/graph.py:256; networkx `from_dict_of_dicts`): the graph.  Edges are reported from the node that comes first. -/
def graphOf (adj : Dict V (Dict V ℚ)) : Graph V where
  nodes := adj.keys.toFinset ∪ (adj.values.map (fun e => e.keys.toFinset)).foldl (· ∪ ·) ∅
  edges := ((adj.entries.map (fun e => e.2.keys.map (fun j => sortPair (e.1, j)))).flatten).toFinset

/-- `cls(adjacencies)` (graph/graph.py:256; networkx `from_dict_of_dicts`): the `shared_perim` of the edges; of the two directions of an edge the one
written last counts -/
def sharedOf (adj : Dict V (Dict V ℚ)) : Dict (V × V) ℚ :=
  adj.entries.foldl (fun d e => e.2.entries.foldl (fun d x => d.set (sortPair (e.1, x.1)) x.2) d) Dict.empty

/-- an attribute of a node -/
inductive AttrVal
  | num (q : ℚ) | bool (b : Bool) | other (s : String)
  deriving DecidableEq

/-- `add_boundary_perimeters(graph, geometries)` (graph/graph.py:419-446) -/
def addBoundaryPerimeters (G : Graph V) (shared : Dict (V × V) ℚ) (geo : Geometries V) (attrs : V → Dict String AttrVal) : V → Dict String AttrVal :=
  (iter G.nodes).foldl (fun A v =>
    let A := Function.update A v ((A v).set "boundary_node" (.bool (geo.onOuter v)))
    if geo.onOuter v then
      let sharedPerimeter := ∑ w ∈ G.neighbors v, (shared.get? (sortPair (v, w))).getD 0
      Function.update A v ((A v).set "boundary_perim" (.num (geo.length v - sharedPerimeter)))
    else A) attrs

/-- `networkx.set_node_attributes(graph, name="area", values=areas)` (graph/graph.py:266-267) -/
def addAreas (G : Graph V) (geo : Geometries V) (attrs : V → Dict String AttrVal) : V → Dict String AttrVal :=
  (iter geo.ids).foldl (fun A v => if v ∈ G.nodes then Function.update A v ((A v).set "area" (.num (geo.area v))) else A) attrs

/-- `invalid_geometries(df)` (graph/geo.py:52-68) -/
def Geometries.invalid (geo : Geometries V) : List V := (iter geo.ids).filter (fun v => !geo.valid v)

/-- the graph that `from_geodataframe` returns -/
structure GeoGraph (V : Type) where
  graph : Graph V
  shared : Dict (V × V) ℚ
  attrs : V → Dict String AttrVal

/-- the first part of `Graph.from_geodataframe` (graph/graph.py:225-251): validation and reprojection.  `projected` are the geometries after
`reprojected`. -/
def checkGeometries (geo projected : Geometries V) (reproject ignoreErrors : Bool) : Py (Geometries V) :=
  if !ignoreErrors && decide (0 < geo.invalid.length) then .error .geometryError
  else if reproject then
    if ignoreErrors && decide (0 < projected.invalid.length) then .error .geometryError else .ok projected
  else .ok geo

/-- the second part of `Graph.from_geodataframe` (graph/graph.py:253-285): the graph and its attributes.  Coordinate reference systems are in Model/Crs,
warnings in Model/Warnings. -/
def buildGeoGraph (geo : Geometries V) (df : DataFrame V AttrVal) (adjacency : String) (cols : Option (List String)) : Py (GeoGraph V) :=
  match geoNeighbors geo adjacency with
  | .error e => .error e
  | .ok adj =>
    let attrs := addBoundaryPerimeters (graphOf adj) (sharedOf adj) geo (fun _ => Dict.empty)
    match addData (graphOf adj).nodes df cols (addAreas (graphOf adj) geo attrs) with
    | (.ok (), attrs) => .ok ⟨graphOf adj, sharedOf adj, attrs⟩
    | (.error e, _) => .error e

/-- `Graph.from_geodataframe(dataframe, adjacency, cols_to_add, reproject, ignore_errors)` (graph/graph.py:177-285) -/
def fromGeodataframe (geo projected : Geometries V) (df : DataFrame V AttrVal) (adjacency : String) (cols : Option (List String))
    (reproject ignoreErrors : Bool) : Py (GeoGraph V) := do
  let geo ← checkGeometries geo projected reproject ignoreErrors
  buildGeoGraph geo df adjacency cols

/-- the attributes that the updaters read (graph/graph.py:287 `lookup`), missing ones replaced by `False` and 0 -/
def GeoGraph.data (g : GeoGraph V) : GraphData V where
  graph := g.graph
  col f v := match (g.attrs v).get? f with
    | some (.num q) => some q
    | _ => ⊥
  boundaryNode v := (g.attrs v).get? "boundary_node" = some (.bool true)
  boundaryPerim v := match (g.attrs v).get? "boundary_perim" with
    | some (.num q) => q
    | _ => 0
  sharedPerim e := (g.shared.get? e).getD 0
  region f v := match (g.attrs v).get? f with
    | some (.other s) => s
    | _ => ""

end GC

import Verif.Model.Geo

/-!
# The warnings raised while a graph is made: model of `warn_for_overlaps` (graph/adjacency.py), `issue_warnings` and `check_dataframe` (graph/graph.py)

`warnings.warn` with the default filters: the warning is recorded and the program goes on.  The recorded warnings are kept also when an exception follows.
-/

set_option linter.unusedSectionVars false
set_option autoImplicit false

namespace GC

variable {V W : Type} [LinearOrder V]

/-- a warning, with the objects formatted into its message (graph/adjacency.py:112-116, graph/graph.py:406-408, 457, 274-279) -/
inductive GraphWarning (V : Type)
  | overlaps (pairs : Finset (V × V))
  | islands (nodes : Finset V)
  | na (column : String)
  | noCrs
  deriving DecidableEq

/-- the set `overlaps` of `warn_for_overlaps` (graph/adjacency.py:101-109) after the generator of `intersections_with_neighbors` (72-87) has been exhausted, which
`queen` (127-136) does.  `interArea i j` is `geometries[i].intersection(geometries[j]).area`.  Simplified: the index labels can be sorted. -/
def overlapPairs (geo : Geometries V) (interArea : V → V → ℚ) : Finset (V × V) :=
  (iter geo.ids).foldl (fun s i => s ∪ (((geo.neighboring i).filter (fun j => decide (0 < interArea i j))).map (fun j => sortPair (i, j))).toFinset) ∅

/-- `warn_for_overlaps` (graph/adjacency.py:90-116): the warning after the last polygon -/
def warnForOverlaps (geo : Geometries V) (interArea : V → V → ℚ) : List (GraphWarning V) :=
  if 0 < (overlapPairs geo interArea).card then [.overlaps (overlapPairs geo interArea)] else []

/-- `Graph.islands` (graph/graph.py:390-396) -/
def Graph.islands (G : Graph V) : Finset V := G.nodes.filter (fun v => (G.neighbors v).card = 0)

/-- `issue_warnings`, `warn_for_islands` (graph/graph.py:398-416) -/
def warnForIslands (G : Graph V) : List (GraphWarning V) := if 0 < G.islands.card then [.islands G.islands] else []

/-- `check_dataframe` (graph/graph.py:449-457).  `isNa` is `isna` for a cell.  Simplified: the columns are distinct. -/
def checkDataframe (isNa : W → Bool) (df : DataFrame V W) : List (GraphWarning V) :=
  df.columns.flatMap (fun c => if 0 < (df.rows.filter (fun r => isNa (r.2 c))).length then [.na c] else [])

/-- `Graph.add_data` (graph/graph.py:309-335) with its warnings: those about the columns asked for -/
def addDataWarned (isNa : W → Bool) (nodes : Finset V) (df : DataFrame V W) (columns : Option (List String)) (attrs : V → Dict String W) :
    (Py Unit × (V → Dict String W)) × List (GraphWarning V) :=
  match df.select (columns.getD df.columns) with
  | .error e => ((.error e, attrs), [])
  | .ok df' =>
    match df.toDictIndex with
    | .error e => ((.error e, attrs), checkDataframe isNa df')
    | .ok d => ((.ok (), setNodeAttributes nodes d attrs), checkDataframe isNa df')

/-- `Graph.join` (graph/graph.py:337-388) with its warnings -/
def joinDataWarned (isNa : V → Bool) (nodes : Finset V) (df : DataFrame V V) (columns : Option (List String)) (left right : Option String)
    (attrs : V → Dict String V) : (Py Unit × (V → Dict String V)) × List (GraphWarning V) :=
  match joinTable df columns right with
  | .error e => ((.error e, attrs), [])
  | .ok df' =>
    match joinRows df'.toDict (idsToIndex nodes attrs left) with
    | .error e => ((.error e, attrs), checkDataframe isNa df')
    | .ok rows => ((.ok (), setNodeAttributes nodes rows attrs), checkDataframe isNa df')

/-- `Graph.from_geodataframe` (graph/graph.py:177-285) with its warnings; `hasCrs` is `df.crs is not None` after `crs_override` has been set. -/
def fromGeodataframeWarned (interArea : V → V → ℚ) (isNa : AttrVal → Bool) (hasCrs : Bool) (geo projected : Geometries V) (df : DataFrame V AttrVal) (adjacency : String)
    (cols : Option (List String)) (reproject ignoreErrors : Bool) : Py (GeoGraph V) × List (GraphWarning V) :=
  match checkGeometries geo projected reproject ignoreErrors with
  | .error e => (.error e, [])
  | .ok geo =>
    match geoNeighbors geo adjacency with
    | .error e => (.error e, [])
    | .ok adj =>
      let w := warnForOverlaps geo interArea ++ warnForIslands (graphOf adj)
      let attrs := addAreas (graphOf adj) geo (addBoundaryPerimeters (graphOf adj) (sharedOf adj) geo (fun _ => Dict.empty))
      match addDataWarned isNa (graphOf adj).nodes df cols attrs with
      | ((.error e, _), w') => (.error e, w ++ w')
      | ((.ok (), attrs), w') => (.ok ⟨graphOf adj, sharedOf adj, attrs⟩, w ++ w' ++ (if hasCrs then [] else [.noCrs]))

end GC

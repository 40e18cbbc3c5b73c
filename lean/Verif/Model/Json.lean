import Verif.Py
import Mathlib.Data.Rat.Defs

/-!
# Saving graphs and loading them again: model of `Graph.to_json` and `Graph.from_json` (gerrychain/graph/graph.py)

The file is modelled by the data that `json.load` returns for what `json.dump` has written.  The functions `adjacency_data` and `adjacency_graph` of networkx
are modelled after their source, for graphs that are neither directed nor multigraphs.  Attributes of the graph as a whole (`data["graph"]`) are not modelled.
-/

set_option linter.unusedSectionVars false
set_option autoImplicit false

namespace GC

/-- the python values that JSON represents faithfully and that are hashable (graph/graph.py:114): `None`, Booleans, numbers and strings.  JSON as python
writes it has the numbers `nan` and `inf` as well; `nan` stands for them. -/
inductive Atom where
  | null
  | bool (b : Bool)
  | num (q : ℚ)
  | nan
  | str (s : String)
  deriving DecidableEq

/-- the python values that occur as labels of nodes and as attributes (graph/graph.py:103-114).  Lists and tuples are modelled with atoms as elements only.
`geometry` is an object with `__geo_interface__`, `geojson g` the dictionary that this property returns, `npInt` a numpy integer, and `object` any other
object that JSON does not know: a numpy float or Boolean, a set, a date. -/
inductive PyVal where
  | atom (a : Atom)
  | list (l : List Atom)
  | tuple (l : List Atom)
  | geometry (g : ℕ)
  | geojson (g : ℕ)
  | npInt (n : ℤ)
  | object (k : ℕ)
  deriving DecidableEq

/-- the names of attributes: strings, but also numbers (the columns of a table may be numbered) and tuples (graph/graph.py:114, where they become the keys of
JSON objects) -/
inductive AttrName where
  | str (s : String)
  | int (n : ℤ)
  | tuple (l : List Atom)
  deriving DecidableEq

/-- attributes of one node or edge -/
abbrev Attrs := Dict AttrName PyVal

/-- A networkx graph (graph/graph.py:51): the attributes of the nodes and, for every edge in both directions, the attributes of the edge.  In networkx both
directions share one dictionary of attributes. -/
structure NxGraph where
  nodes : Dict PyVal Attrs
  adj : Dict (PyVal × PyVal) Attrs
  deriving DecidableEq

/-- the data of a graph (graph/graph.py:103): one dictionary for every node, and for every node one for each of its neighbours; the label is stored with the
attributes, under the name `"id"` -/
structure AdjData where
  nodes : List Attrs
  adjacency : List (List Attrs)
  deriving DecidableEq

/-- the name `"id"` (networkx `adjacency_data`, called in graph/graph.py:103) -/
def idName : AttrName := .str "id"

/-- `json_graph.adjacency_data(self)` (graph/graph.py:103): `{**attributes, "id": label}` for every node and every neighbour -/
def adjacencyData (G : NxGraph) : AdjData :=
  ⟨G.nodes.entries.map (fun e => e.2.set idName e.1),
   G.nodes.entries.map (fun e => (G.adj.entries.filter (fun a => a.1.1 = e.1)).map (fun a => a.2.set idName a.1.2))⟩

/-- `hasattr(x, "__geo_interface__")` (graph/graph.py:478, 501) -/
def isGeometry : PyVal → Bool
  | .geometry _ => true
  | _ => false

/-- `remove_geometries` (graph/graph.py:460-481) -/
def removeGeometries (data : AdjData) : AdjData :=
  { data with nodes := data.nodes.map (fun d => ⟨d.entries.filter (fun e => !isGeometry e.2)⟩) }

/-- `node[key].__geo_interface__` (graph/graph.py:505) -/
def geoInterface : PyVal → PyVal
  | .geometry g => .geojson g
  | x => x

/-- `convert_geometries_to_geojson` (graph/graph.py:484-505) -/
def convertGeometries (data : AdjData) : AdjData :=
  { data with nodes := data.nodes.map (fun d => ⟨d.entries.map (fun e => (e.1, geoInterface e.2))⟩) }

/-- what `json.load` returns for a value that `json.dump(…, default=json_serialize)` has written (graph/graph.py:29-48, 114, 87): tuples become lists,
`json_serialize` turns numpy integers into integers and every other object that JSON does not know into `None` -/
def jsonValue : PyVal → PyVal
  | .atom a => .atom a
  | .list l => .list l
  | .tuple l => .list l
  | .geojson g => .geojson g
  | .npInt n => .atom (.num n)
  | .geometry _ => .atom .null
  | .object _ => .atom .null

/-- what `json.load` returns for a key that `json.dump` has written (graph/graph.py:114): numbers become strings, and `json.dump` raises `TypeError` for a
tuple -/
def jsonName : AttrName → Py AttrName
  | .str s => .ok (.str s)
  | .int n => .ok (.str (toString n))
  | .tuple _ => .error .typeError

/-- `json.dump` and `json.load` of a dictionary (graph/graph.py:114, 87): of several values with the same key the last counts -/
def jsonDict (d : Attrs) : Py Attrs :=
  d.entries.foldlM (fun d e => do return d.set (← jsonName e.1) (jsonValue e.2)) Dict.empty

/-- `Graph.to_json` (graph/graph.py:92-114), with the result of `json.load` on the file (graph/graph.py:87) -/
def toJson (G : NxGraph) (geojson : Bool) : Py AdjData := do
  let data := adjacencyData G
  let data := if geojson then convertGeometries data else removeGeometries data
  let nodes ← data.nodes.mapM jsonDict
  let adjacency ← data.adjacency.mapM (fun row => row.mapM jsonDict)
  return ⟨nodes, adjacency⟩

/-- `graph.add_node(x)` (networkx, called by `adjacency_graph` in graph/graph.py:88): `ValueError` for `None`, `TypeError` for a value that is not hashable.
The dictionary of attributes of a node that exists already is kept. -/
def addNxNode (x : PyVal) (G : NxGraph) : Py NxGraph :=
  match x with
  | .atom .null => .error .valueError
  | .list _ => .error .typeError
  | .geojson _ => .error .typeError
  | x => .ok (if G.nodes.contains x then G else { G with nodes := G.nodes.set x Dict.empty })

/-- `node_data.pop("id")` (networkx `adjacency_graph`, called in graph/graph.py:88) -/
def popId (d : Attrs) : Py (PyVal × Attrs) := do
  let x ← d.get idName
  return (x, ⟨d.entries.filter (fun e => e.1 ≠ idName)⟩)

/-- the first loop of `adjacency_graph` (networkx, called in graph/graph.py:88): adds a node, updates its attributes, and appends it to `mapping` -/
def loadNode (st : NxGraph × List PyVal) (d : Attrs) : Py (NxGraph × List PyVal) := do
  let (x, attrs) ← popId d
  let G ← addNxNode x st.1
  return ({ G with nodes := G.nodes.modifyD x Dict.empty (fun a => a.update attrs) }, st.2 ++ [x])

/-- the body of the second loop of `adjacency_graph` (networkx, called in graph/graph.py:88): `graph.add_edge(source, target)`, which adds missing nodes, and
the update of the attributes of the edge -/
def loadEdge (source : PyVal) (G : NxGraph) (d : Attrs) : Py NxGraph := do
  let (target, attrs) ← popId d
  let G ← addNxNode source G
  let G ← addNxNode target G
  let new := ((G.adj.get? (source, target)).getD Dict.empty).update attrs
  return { G with adj := (G.adj.set (source, target) new).set (target, source) new }

/-- `json_graph.adjacency_graph(data)` (networkx, called in graph/graph.py:88); a row without a node raises `IndexError` -/
def adjacencyGraph (data : AdjData) : Py NxGraph := do
  let (G, mapping) ← data.nodes.foldlM loadNode (⟨Dict.empty, Dict.empty⟩, [])
  data.adjacency.zipIdx.foldlM (fun G row => match mapping[row.2]? with
    | some source => row.1.foldlM (loadEdge source) G
    | none => .error .indexError) G

/-- `Graph.to_json` followed by `Graph.from_json` of the same file (graph/graph.py:77-114).  `from_networkx` copies the graph and `issue_warnings` only
warns. -/
def saveAndLoad (G : NxGraph) (geojson : Bool) : Py NxGraph := do
  adjacencyGraph (← toJson G geojson)

end GC

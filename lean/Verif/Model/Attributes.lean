import Verif.Model.Graph

/-!
# Node attributes from tables: model of `Graph.add_data` and `Graph.join` (gerrychain/graph/graph.py)

The nodes are of type `V`, attributes and cells of a table of type `W`.  In `Graph.join` cells and attributes are compared with index labels, so that `W = V` there.
The state is the dictionary of attributes of every node.
-/

set_option linter.unusedSectionVars false
set_option autoImplicit false

namespace GC

variable {V W : Type} [LinearOrder V]

/-- A pandas `DataFrame`: the names of the columns, which are distinct, and the rows, each with its index label.  Index labels may be repeated. -/
structure DataFrame (V W : Type) where
  columns : List String
  rows : List (V × (String → W))

/-- `df[columns]` for a list of columns (graph/graph.py:327, 368): `KeyError` for an unknown one -/
def DataFrame.select (df : DataFrame V W) (cols : List String) : Py (DataFrame V W) :=
  if cols.all (fun c => c ∈ df.columns) then .ok ⟨cols, df.rows⟩ else .error .keyError

/-- `dataframe.set_index(c)` (graph/graph.py:363): the column becomes the index and is no longer a column -/
def DataFrame.setIndex (df : DataFrame V V) (c : String) : Py (DataFrame V V) :=
  if c ∈ df.columns then .ok ⟨df.columns.filter (· ≠ c), df.rows.map (fun r => (r.2 c, r.2))⟩ else .error .keyError

/-- one column of `df.to_dict()` (graph/graph.py:372): of rows with the same index label the last counts -/
def DataFrame.column (df : DataFrame V W) (c : String) : Dict V W := df.rows.foldl (fun d r => d.set r.1 (r.2 c)) Dict.empty

/-- `df.to_dict()` (graph/graph.py:372): column -> index label -> cell -/
def DataFrame.toDict (df : DataFrame V W) : Dict String (Dict V W) := df.columns.foldl (fun d c => d.set c (df.column c)) Dict.empty

/-- a row of `df.to_dict("index")` (graph/graph.py:329) -/
def DataFrame.rowDict (df : DataFrame V W) (r : String → W) : Dict String W := df.columns.foldl (fun d c => d.set c (r c)) Dict.empty

/-- `df.to_dict("index")` (graph/graph.py:329): index label -> column -> cell; pandas raises `ValueError` when an index label is repeated -/
def DataFrame.toDictIndex (df : DataFrame V W) : Py (Dict V (Dict String W)) :=
  if (df.rows.map (·.1)).Nodup then .ok (df.rows.foldl (fun d r => d.set r.1 (df.rowDict r.2)) Dict.empty) else .error .valueError

/-- `networkx.set_node_attributes(self, values)` (graph/graph.py:330, 388): updates the attributes of every node that occurs in `values`; keys that are
not nodes are ignored -/
def setNodeAttributes (nodes : Finset V) (values : Dict V (Dict String W)) (attrs : V → Dict String W) : V → Dict String W :=
  values.entries.foldl (fun A e => if e.1 ∈ nodes then Function.update A e.1 ((A e.1).update e.2) else A) attrs

/-- `Graph.add_data(df, columns)` (graph/graph.py:309-335).  `check_dataframe` only warns.  The attribute `data` of the graph (lines 332-335) is not
modelled. -/
def addData (nodes : Finset V) (df : DataFrame V W) (columns : Option (List String)) : M (V → Dict String W) Unit := do
  let _ ← M.lift (df.select (columns.getD df.columns))
  let d ← M.lift df.toDictIndex
  M.modify (setNodeAttributes nodes d)

/-- `ids_to_index` (graph/graph.py:374-379): the key by which a node is matched; nodes without the attribute do not occur -/
def idsToIndex (nodes : Finset V) (attrs : V → Dict String V) (left : Option String) : Dict V V :=
  (iter nodes).foldl (fun d v => match left with
    | none => d.set v v
    | some a => match (attrs v).get? a with
      | some x => d.set v x
      | none => d) Dict.empty

/-- `{column: values[index] for column, values in column_dictionaries.items()}` (graph/graph.py:382-384) -/
def joinRow (cd : Dict String (Dict V V)) (index : V) : Py (Dict String V) :=
  cd.entries.foldlM (fun d e => do
    let x ← e.2.get index
    return d.set e.1 x) Dict.empty

/-- `node_attributes` (graph/graph.py:381-386) -/
def joinRows (cd : Dict String (Dict V V)) (ids : Dict V V) : Py (Dict V (Dict String V)) :=
  ids.entries.foldlM (fun d e => do
    let r ← joinRow cd e.2
    return d.set e.1 r) Dict.empty

/-- the table of `Graph.join` (graph/graph.py:362-368): the index and the columns that were asked for -/
def joinTable (df : DataFrame V V) (columns : Option (List String)) (right : Option String) : Py (DataFrame V V) := do
  let df ← match right with
    | some c => df.setIndex c
    | none => .ok df
  match columns with
  | some cols => df.select cols
  | none => .ok df

/-- `Graph.join(dataframe, columns, left_index, right_index)` (graph/graph.py:337-388).  `check_dataframe` only warns. -/
def joinData (nodes : Finset V) (df : DataFrame V V) (columns : Option (List String)) (left right : Option String) : M (V → Dict String V) Unit := do
  let df ← M.lift (joinTable df columns right)
  let attrs ← M.read
  let rows ← M.lift (joinRows df.toDict (idsToIndex nodes attrs left))
  M.modify (setNodeAttributes nodes rows)

end GC

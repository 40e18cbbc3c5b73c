import Verif.Model.Election

/-!
# Election objects that are used on several graphs and under several names

`Verif.Model.Heap` identifies an election with its columns and registers it under its own alias on one graph.  Here elections are
objects with a memory (`DataTally.data`), partitions may lie on different graphs whose attributes may change, and the dictionary of
updaters may register an election under any name.  Attributes are numbers; NaN is treated in `Verif.Model.Heap` (C07).
-/

set_option linter.unusedSectionVars false
set_option autoImplicit false

namespace GC

variable {V P : Type} [LinearOrder V] [DecidableEq P]

/-- `DataTally.data` (updaters/tally.py:34): the name of a node attribute, or a dictionary of values -/
inductive TallyData (V : Type)
  | column (name : String)
  | values (d : Dict V ℚ)

/-- An `Election` (updaters/election.py:68-109): `alias`, `parties` and the data of `tallies[party]`.  (`name` and `columns` are only
printed.) -/
structure Elec (V : Type) where
  aliasName : String
  parties : List String
  tallies : Dict String (TallyData V)

/-- `Election(name, parties_to_columns, alias)` with a dictionary (updaters/election.py:89-97, 104-107) -/
def Elec.ofDict (name : String) (partiesToColumns : Dict String (TallyData V)) (aliasName : Option String) : Elec V :=
  ⟨aliasName.getD name, partiesToColumns.keys, partiesToColumns⟩

/-- `Election(name, parties_to_columns, alias)` with a list (updaters/election.py:89-91, 98-101, 104-107) -/
def Elec.ofList (name : String) (parties : List String) (aliasName : Option String) : Elec V :=
  ⟨aliasName.getD name, parties, parties.foldl (fun d p => d.set p (.column p)) Dict.empty⟩

/-- A partition (partition/partition.py:27-37): its graph (a number), the assignment, the parent, the flows and the dictionary of
updaters, of which only the elections (by number) are kept -/
structure ElecObj (V P : Type) where
  graph : ℕ
  plan : Assignment V P
  parent : Option ℕ
  flows : Dict P (Flow V)
  updaters : Dict String ℕ

/-- The world: the nodes and the attributes of the graphs, partitions, elections and `_cache` of the partitions -/
structure ElecWorld (V P : Type) where
  nodes : ℕ → Finset V
  attr : ℕ → V → String → Option ℚ
  objs : List (ElecObj V P)
  elecs : List (Elec V)
  cache : ℕ → Dict String (ElectionVal P)

/-- `{node: nodes[node][attribute] for node in nodes}` (updaters/tally.py:41) -/
def readColumn (nodes : Finset V) (attr : V → String → Option ℚ) (c : String) : Py (Dict V ℚ) :=
  (iter nodes).foldlM (fun d v => match attr v c with
    | some x => .ok (d.set v x)
    | none => .error .keyError) Dict.empty

/-- the values as numbers -/
def valuesOf (d : Dict V ℚ) (v : V) : Num := (((d.get? v).getD 0 : ℚ) : Num)

/-- the loop of `initialize_tally` (updaters/tally.py:43-55): `self.data[node]` for the nodes of the assignment -/
def tallyFrom (d : Dict V ℚ) (m : Dict V P) : Py (Dict P Num) :=
  if ∀ v ∈ m.keys, v ∈ d.keys then .ok (tallyInit (valuesOf d) m) else .error .keyError

/-- `update_tally` under `on_flow` (updaters/tally.py:57-61, flows.py:88-102): `self.data[node]` for the nodes that moved.  A name of a column cannot be
added up (`TypeError`; simplified: for nodes beyond the end of the name it is an `IndexError`). -/
def tallyMove (data : TallyData V) (flows : Dict P (Flow V)) (previous : Dict P Num) : Py (Dict P Num) :=
  match data with
  | .values d => if ∀ e ∈ flows.entries, ∀ v ∈ e.2.inn ∪ e.2.out, v ∈ d.keys then dataTallyStep (valuesOf d) flows previous else .error .keyError
  | .column _ => if flows.entries = [] then .ok previous else .error .typeError

/-- `self.data = d` for the tally of a party -/
def ElecWorld.remember (s : ElecWorld V P) (i : ℕ) (party : String) (d : Dict V ℚ) : ElecWorld V P :=
  { s with elecs := s.elecs.modify i (fun e => { e with tallies := e.tallies.set party (.values d) }) }

/-- `tallies[party](partition, previous=...)` (updaters/tally.py:37-66): a partition without parent is added up, and the values are read from
its graph if they are not known yet. -/
def callTally (i : ℕ) (party : String) (o : ElecObj V P) (previous : Option (Dict P Num)) : M (ElecWorld V P) (Dict P Num) := fun s =>
  match s.elecs[i]? with
  | none => (.error .attributeError, s)
  | some e => match e.tallies.get? party with
    | none => (.error .keyError, s)
    | some data => match o.parent, previous with
      | some _, some prev => (tallyMove data o.flows prev, s)
      | some _, none => (.error .keyError, s)
      | none, _ => match data with
        | .values d => (tallyFrom d o.plan.mapping, s)
        | .column c => match readColumn (s.nodes o.graph) (s.attr o.graph) c with
          | .error err => (.error err, s)
          | .ok d => (tallyFrom d o.plan.mapping, s.remember i party d)

/-- `previous_totals_for_party[party]` (updaters/election.py:144, 162) -/
def previousOf (previous : Option (Dict String (Dict P Num))) (party : String) : Py (Option (Dict P Num)) :=
  match previous with
  | none => .ok none
  | some x => (x.get party).map some

/-- the dictionary `counts` (updaters/election.py:143-146) -/
def electionCounts (i : ℕ) (o : ElecObj V P) (previous : Option (Dict String (Dict P Num))) : List String → Dict String (Dict P Num) →
    M (ElecWorld V P) (Dict String (Dict P Num))
  | [], d => pure d
  | party :: l, d => do
    let prev ← M.lift (previousOf previous party)
    let t ← callTally i party o prev
    electionCounts i o previous l (d.set party t)

/-- `ElectionUpdater.__call__` (updaters/election.py:138-167) given `rec name q` = `partition_q[name]` -/
def callElection (rec : String → ℕ → M (ElecWorld V P) (ElectionVal P)) (i : ℕ) (o : ElecObj V P) (e : Elec V) : M (ElecWorld V P) (ElectionVal P) := do
  let previous ← (match o.parent with
    | none => pure none
    | some q => do
      let r ← rec e.aliasName q
      pure (some r.totalsForParty))
  let counts ← electionCounts i o previous e.parties Dict.empty
  M.lift (electionResults (e.parties.map (fun p => (p, p))) counts o.plan.parts.keys)

/-- `partition[name]` (partition/partition.py:197-208); `limit` is the recursion limit -/
def electionItem : ℕ → String → ℕ → M (ElecWorld V P) (ElectionVal P)
  | 0, _, _ => M.raise .recursionError
  | limit + 1, name, p => fun s =>
    match (s.cache p).get? name with
    | some r => (.ok r, s)
    | none => match s.objs[p]? with
      | none => (.error .attributeError, s)
      | some o => match o.updaters.get? name with
        | none => (.error .keyError, s)
        | some i => match s.elecs[i]? with
          | none => (.error .attributeError, s)
          | some e => match callElection (electionItem limit) i o e s with
            | (.error err, s1) => (.error err, s1)
            | (.ok r, s1) => (.ok r, { s1 with cache := fun q => if q = p then (s1.cache p).set name r else s1.cache q })

/-- what a user can do: change an attribute, make a partition on a graph, flip, look up, and erase a parent (as the chain does) -/
inductive ElecOp (V P : Type)
  | setAttr (g : ℕ) (v : V) (name : String) (x : ℚ)
  | create (g : ℕ) (assignment : Dict V P) (updaters : Dict String ℕ)
  | flip (p : ℕ) (flips : Dict V P)
  | lookup (limit : ℕ) (name : String) (p : ℕ)
  | erase (p : ℕ)

/-- `graph.nodes[v][name] = x` -/
def ElecWorld.setAttr (s : ElecWorld V P) (g : ℕ) (v : V) (name : String) (x : ℚ) : ElecWorld V P :=
  { s with attr := fun g' v' n' => if g' = g ∧ v' = v ∧ n' = name then some x else s.attr g' v' n' }

/-- `Partition(graph, assignment, updaters)` (partition/partition.py:40-151) -/
def ElecWorld.create (s : ElecWorld V P) (g : ℕ) (d : Dict V P) (updaters : Dict String ℕ) : Py (ElecWorld V P) := do
  let a ← Assignment.fromDict d
  if a.mapping.keys.toFinset ≠ s.nodes g then .error .keyError
  else return { s with objs := s.objs ++ [⟨g, a, none, Dict.empty, updaters⟩], cache := fun q => if q = s.objs.length then Dict.empty else s.cache q }

/-- `partition.flip(flips)` (partition/partition.py:153-185) -/
def ElecWorld.flip (s : ElecWorld V P) (p : ℕ) (flips : Dict V P) : Py (ElecWorld V P) := do
  let o ← (match s.objs[p]? with | some o => .ok o | none => .error .attributeError)
  let flows ← flowsFromChanges o.plan.mapping flips
  let b ← o.plan.flip flips
  return { s with objs := s.objs ++ [⟨o.graph, b, some p, flows, o.updaters⟩], cache := fun q => if q = s.objs.length then Dict.empty else s.cache q }

/-- `partition.parent = None` (chain.py:187-188) -/
def ElecWorld.erase (s : ElecWorld V P) (p : ℕ) : ElecWorld V P := { s with objs := s.objs.modify p (fun o => { o with parent := none }) }

/-- one operation; exceptions leave the world as it was when they were raised -/
def ElecWorld.step (s : ElecWorld V P) : ElecOp V P → ElecWorld V P
  | .setAttr g v name x => s.setAttr g v name x
  | .create g d ups => match s.create g d ups with
    | .ok s' => s'
    | .error _ => s
  | .flip p flips => match s.flip p flips with
    | .ok s' => s'
    | .error _ => s
  | .lookup limit name p => (electionItem limit name p s).2
  | .erase p => s.erase p

/-- a whole history -/
def ElecWorld.run (s : ElecWorld V P) (ops : List (ElecOp V P)) : ElecWorld V P := ops.foldl ElecWorld.step s

/-- no partitions yet -/
def ElecWorld.start (nodes : ℕ → Finset V) (attr : ℕ → V → String → Option ℚ) (elecs : List (Elec V)) : ElecWorld V P :=
  ⟨nodes, attr, [], elecs, fun _ => Dict.empty⟩

end GC

import Verif.Model.Recom

/-!
# Making partitions: model of the constructors in `gerrychain/partition/partition.py` and of `get_assignment`
-/

set_option linter.unusedSectionVars false
set_option autoImplicit false

namespace GC

variable {V P X : Type} [LinearOrder V] [LinearOrder P]

/-- What may be passed as `assignment` (partition/assignment.py:177-191): the name of a node attribute, a dictionary, an `Assignment`, or
something else. -/
inductive AssignArg (V P : Type) where
  | attr (name : String)
  | dict (d : Dict V P)
  | assignment (a : Assignment V P)
  | other

/-- `{node: f(node) for node in graph}` where `f` may raise `KeyError` (partition/assignment.py:182-184, partition/partition.py:285, 292) -/
def collectNodes {A : Type} (f : V → Option A) (nodes : Finset V) : Py (Dict V A) :=
  (iter nodes).foldlM (fun d v => match f v with
    | some x => .ok (d.set v x)
    | none => .error .keyError) Dict.empty

/-- `get_assignment(part_assignment, graph)` (partition/assignment.py:153-191); `nodes` is `none` when no graph is given.  An `Assignment` has a
method `items` (partition/assignment.py:88-92), so that the test at line 186 succeeds and the assignment is built again from its mapping; lines 188-189
are never reached. -/
def getAssignment (attr : String → V → Option P) (nodes : Option (Finset V)) : AssignArg V P → Py (Assignment V P)
  | .attr name => match nodes with
    | none => .error .typeError
    | some ns => do
      let d ← collectNodes (attr name) ns
      Assignment.fromDict d
  | .dict d => Assignment.fromDict d
  | .assignment a => Assignment.fromDict a.mapping
  | .other => .error .typeError

/-- The assignment of `Partition(graph, assignment)` (partition/partition.py:132-135): `KeyError` when the keys are not the nodes of the graph. -/
def firstAssignment (attr : String → V → Option P) (nodes : Finset V) (arg : AssignArg V P) : Py (Assignment V P) := do
  let a ← getAssignment attr (some nodes) arg
  if a.mapping.keys.toFinset ≠ nodes then .error .keyError else .ok a

/-- The assignment made by `Partition.from_districtr_file` (partition/partition.py:280-294).  `idOf` is the node attribute of the id column, converted
to a string; `file` the entry `assignment` of the JSON object. -/
def districtrAssignment (attr : String → V → Option P) (nodes : Finset V) (idOf : V → Option String) (file : Dict String P) : Py (Assignment V P) := do
  let nodeToId ← (match collectNodes idOf nodes with
    | .ok d => .ok d
    | .error _ => .error .typeError)
  let d ← collectNodes (fun v => (nodeToId.get? v).bind file.get?) nodes
  firstAssignment attr nodes (.dict d)

/-- `cls(graph, assignment)` for a dictionary (partition/partition.py:62, 122-151) on the heap: the address of the new partition -/
def createObj (d : Dict V P) : M (World V P X) ℕ := fun s =>
  match s.1.frame.create d with
  | .ok F => (.ok s.1.frame.objs.length, (⟨F, s.1.caches⟩, s.2))
  | .error e => (.error e, s)

/-- `Partition.from_random_assignment` (partition/partition.py:67-120).  `partFn graph parts pop target epsilon` is the argument `method`; the argument
`flips` of the code is not used by it.  Every node has a population (otherwise `KeyError`). -/
def fromRandomAssignment (partFn : Graph V → List ℕ → (V → ℚ) → ℚ → ℚ → M X (Dict V ℕ)) (pop : V → ℚ) (n : ℤ) (eps : ℚ) : M (World V ℕ X) ℕ := fun s =>
  (do
    let ideal ← M.lift (if n = 0 then .error .zeroDivision else .ok ((∑ v ∈ s.1.frame.data.graph.nodes, pop v) / (n : ℚ)))
    let d ← M.onRest (partFn s.1.frame.data.graph (List.range n.toNat) pop ideal eps)
    createObj d : M (World V ℕ X) ℕ) s

end GC

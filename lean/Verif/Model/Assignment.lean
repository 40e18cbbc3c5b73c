import Verif.Model.Graph

/-!
# Assignments: model of `gerrychain/partition/assignment.py`
-/

set_option autoImplicit false

namespace GC

variable {V P : Type} [LinearOrder V] [DecidableEq P]

/-- `class Assignment` (partition/assignment.py:10, slots at line 21): the two views of an assignment. -/
structure Assignment (V P : Type) where
  parts : Dict P (Finset V)
  mapping : Dict V P
  deriving DecidableEq

/-- The `for node in nodes: mapping[node] = part` loop (partition/assignment.py:52-53, 85-86, 114-115).
Iteration order of a python set is unspecified; the model iterates in sorted order, which only affects the
insertion order of the dictionary. -/
def assignAll (mapping : Dict V P) (nodes : Finset V) (part : P) : Dict V P :=
  (iter nodes).foldl (fun m node => m.set node part) mapping

/-- Rebuilding `mapping` from `parts` (partition/assignment.py:50-53). -/
def mappingOfParts (parts : Dict P (Finset V)) : Dict V P :=
  parts.entries.foldl (fun m e => assignAll m e.2 e.1) Dict.empty

/-- `sum(len(keys) for keys in parts.values())` (partition/assignment.py:41 and 64, `__len__`). -/
def partsLen (parts : Dict P (Finset V)) : ℕ := (parts.values.map Finset.card).sum

/-- `set().union(*parts.values())` (partition/assignment.py:42). -/
def partsUnion (parts : Dict P (Finset V)) : Finset V := parts.values.foldl (· ∪ ·) ∅

/-- `Assignment.__init__(parts, mapping=None, validate=True)` (partition/assignment.py:23-55).  The `TypeError`
branch (values that are not frozensets) cannot occur in the typed model. -/
def Assignment.init (parts : Dict P (Finset V)) (mapping : Dict V P) (validate : Bool) : Py (Assignment V P) :=
  if validate && (partsLen parts != (partsUnion parts).card) then .error .valueError
  else if mapping.entries.isEmpty then .ok ⟨parts, mappingOfParts parts⟩
  else .ok ⟨parts, mapping⟩

/-- `level_sets(mapping)` (partition/assignment.py:194-220). -/
def levelSets (mapping : Dict V P) : Dict P (Finset V) :=
  mapping.entries.foldl (fun sets e => sets.modifyD e.2 ∅ (insert e.1)) Dict.empty

/-- `Assignment.from_dict` (partition/assignment.py:134-151).  `frozenset(keys)` is the identity on the model's sets. -/
def Assignment.fromDict (d : Dict V P) : Py (Assignment V P) :=
  Assignment.init (levelSets d) Dict.empty true

/-- `Assignment.copy` (partition/assignment.py:69-74).  Both dictionaries are fresh copies (the heap model
`Verif.Model.Heap` makes the freshness explicit); an empty mapping is rebuilt by `__init__`. -/
def Assignment.copy (a : Assignment V P) : Py (Assignment V P) :=
  Assignment.init a.parts a.mapping false

/-- `Assignment.__len__` (partition/assignment.py:63-64). -/
def Assignment.len (a : Assignment V P) : ℕ := partsLen a.parts

/-- A flow `{"in": set, "out": set}` (updaters/flows.py:22-23 `create_flow`). -/
structure Flow (α : Type) where
  inn : Finset α
  out : Finset α
  deriving DecidableEq

/-- `create_flow()` (updaters/flows.py:22-23). -/
def Flow.create {α : Type} : Flow α := ⟨∅, ∅⟩

/-- `flow["in"].add(x)` -/
def Flow.addIn {α : Type} [DecidableEq α] (x : α) (f : Flow α) : Flow α := { f with inn := insert x f.inn }
/-- `flow["out"].add(x)` -/
def Flow.addOut {α : Type} [DecidableEq α] (x : α) (f : Flow α) : Flow α := { f with out := insert x f.out }

/-- One iteration of the loop in `Assignment.update_flows` (partition/assignment.py:80-86): `KeyError` when the
part is unknown. -/
def Assignment.applyFlow (a : Assignment V P) (e : P × Flow V) : Py (Assignment V P) := do
  let old ← a.parts.get e.1
  return ⟨a.parts.set e.1 ((old \ e.2.out) ∪ e.2.inn), assignAll a.mapping e.2.inn e.1⟩

/-- `Assignment.update_flows(flows)` (partition/assignment.py:76-86). -/
def Assignment.updateFlows (a : Assignment V P) (flows : Dict P (Flow V)) : Py (Assignment V P) :=
  flows.entries.foldlM Assignment.applyFlow a

/-- `Assignment.update_parts(new_parts)` (partition/assignment.py:100-115). -/
def Assignment.updateParts (a : Assignment V P) (newParts : Dict P (Finset V)) : Assignment V P :=
  newParts.entries.foldl (fun a e => ⟨a.parts.set e.1 e.2, assignAll a.mapping e.2 e.1⟩) a

/-- One iteration of the loop in `flows_from_changes` (updaters/flows.py:40-44). -/
def flowsStep (old : Dict V P) (flows : Dict P (Flow V)) (e : V × P) : Py (Dict P (Flow V)) := do
  let source ← old.get e.1
  if source ≠ e.2 then
    return (flows.modifyD e.2 Flow.create (Flow.addIn e.1)).modifyD source Flow.create (Flow.addOut e.1)
  else return flows

/-- `flows_from_changes(old_partition, new_partition)` (updaters/flows.py:26-45); only `old.assignment.mapping` and
`new.flips` are read.  The `lru_cache` is keyed on object identity and its result is never mutated, so it is not modelled. -/
def flowsFromChanges (old : Dict V P) (flips : Dict V P) : Py (Dict P (Flow V)) :=
  flips.entries.foldlM (flowsStep old) Dict.empty

/-- The assignment part of `Partition._from_parent` (partition/partition.py:160-163): flows, copy, update. -/
def Assignment.flip (a : Assignment V P) (flips : Dict V P) : Py (Assignment V P) := do
  let flows ← flowsFromChanges a.mapping flips
  let b ← a.copy
  b.updateFlows flows

end GC

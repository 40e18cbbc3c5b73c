import Verif.Model.TallyNames
import Verif.Model.Splits

/-!
# `county_splits` and the names it is registered under

`county_splits(partition_name, county_field_name)` (updaters/county_splits.py:34-54) makes an updater that looks up `partition_name` on the parent, whatever is registered there.  In
Model/Heap it is registered under `partition_name`; here under arbitrary names.
-/

set_option autoImplicit false

namespace GC

variable {V P : Type} [LinearOrder V] [DecidableEq P]

/-- The function that `county_splits(partition_name, county_field_name)` returns: what it keeps of its arguments (updaters/county_splits.py:51-54). -/
structure CountyUpd where
  partitionName : String
  field : String
  deriving DecidableEq, Repr

/-- `county_splits` (updaters/county_splits.py:34-54) -/
def countySplitsMake (partitionName countyFieldName : String) : CountyUpd := ⟨partitionName, countyFieldName⟩

/-- The `county_splits` updaters in `partition.updaters` (partition/partition.py:137-147), by the names they are registered under. -/
abbrev CountyRegistry := Dict String CountyUpd

/-- The `_cache` of each object, restricted to these updaters (partition/partition.py:36). -/
abbrev CountyCaches (V P : Type) := ℕ → Dict String (Dict String (CountyInfo V P))

/-- `Partition.__getitem__` (partition/partition.py:197-208) with `compute_county_splits` (updaters/county_splits.py:57-115): the cached value; or `KeyError` for a name that is not
registered; or the counties of the plan if there is no parent (or one without parts, which is falsy); or `parent[partition_name]` with the districts of this plan.  `limit` is the
recursion limit. -/
def countyGet (F : Frame V P) (reg : CountyRegistry) : ℕ → String → ℕ → M (CountyCaches V P) (Dict String (CountyInfo V P))
  | 0, _, _ => M.raise .recursionError
  | limit + 1, name, p => do
    let c ← M.read
    match (c p).get? name with
    | some d => pure d
    | none =>
      match reg.get? name with
      | none => M.raise .keyError
      | some u =>
        match F.view p with
        | none => M.raise .attributeError
        | some v =>
          match F.truthyParent v with
          | none => do
            let d ← M.lift (countySplitsInit F.data.graph.nodes (F.data.region u.field) v.assignment.mapping)
            store p name d
          | some q => do
            let prev ← countyGet F reg limit u.partitionName q
            let d ← M.lift (countySplitsStep v.assignment.mapping prev)
            store p name d
where
  /-- `self._cache[key] = ...; return self._cache[key]` (partition/partition.py:206-208) -/
  store (p : ℕ) (name : String) (d : Dict String (CountyInfo V P)) : M (CountyCaches V P) (Dict String (CountyInfo V P)) := do
    M.modify (fun c i => if i = p then (c p).set name d else c i)
    pure d

/-- Objects and their caches. -/
structure CountyWorld (V P : Type) where
  frame : Frame V P
  caches : CountyCaches V P

/-- Perform an operation (partition/partition.py:49-208, chain.py:181); an exception leaves the state as it was when it was raised. -/
def CountyWorld.step (reg : CountyRegistry) (W : CountyWorld V P) : TallyOp V P → CountyWorld V P
  | .create d => match W.frame.create d with
    | .ok F => ⟨F, W.caches⟩
    | .error _ => W
  | .flip p flips => match W.frame.flip p flips with
    | .ok F => ⟨F, W.caches⟩
    | .error _ => W
  | .lookup p name limit => ⟨W.frame, (countyGet W.frame reg limit name p W.caches).2⟩
  | .eraseParent p => ⟨W.frame.eraseParent p, W.caches⟩

/-- The objects after a history on the graph `D` whose other updaters are `ups` (partition/partition.py:49-208). -/
def CountyWorld.after (D : GraphData V) (ups : List Key) (reg : CountyRegistry) (ops : List (TallyOp V P)) : CountyWorld V P :=
  ops.foldl (CountyWorld.step reg) ⟨⟨D, ups, [], [], []⟩, fun _ => Dict.empty⟩

/-- `partition[name]` (partition/partition.py:197-208). -/
def CountyWorld.get (reg : CountyRegistry) (W : CountyWorld V P) (p : ℕ) (name : String) (limit : ℕ) : Py (Dict String (CountyInfo V P)) :=
  (countyGet W.frame reg limit name p W.caches).1

/-- `refuse_new_splits(name)` (constraints/validity.py:154-173) on the partition `p` -/
def CountyWorld.refuseNew (reg : CountyRegistry) (W : CountyWorld V P) (name : String) (p limit : ℕ) : Py Bool :=
  match W.get reg p name limit with
  | .ok d => .ok (noNewSplits d)
  | .error e => .error e

end GC

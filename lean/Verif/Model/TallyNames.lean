import Verif.Model.Heap

/-!
# Tallies and the names they are registered under

`Tally` objects with an `alias` of their own (updaters/tally.py:69-170), registered under arbitrary names in
`partition.updaters`.  In Model/Heap every tally is registered under its alias; here a tally that is asked for on a
child looks up its *alias* on the parent, whatever is registered there.
-/

set_option autoImplicit false

namespace GC

variable {V P : Type} [LinearOrder V] [DecidableEq P]

/-- A `Tally` object (slots at updaters/tally.py:83; `dtype` is not modelled: the sums are exact). -/
structure TallyUpd where
  fields : List String
  aliasName : String
  deriving DecidableEq, Repr

/-- `Tally.__init__` (updaters/tally.py:85-111): a single field is put into a list; a missing or empty alias is replaced by
the first field, which raises `IndexError` when there is none. -/
def tallyMake (fields : String ⊕ List String) (aliasName : Option String) : Py TallyUpd :=
  let fields := match fields with
    | .inl f => [f]
    | .inr l => l
  match aliasName with
  | some a => if a = "" then firstField fields else .ok ⟨fields, a⟩
  | none => firstField fields
where
  /-- `alias = fields[0]` (updaters/tally.py:107-108) -/
  firstField : List String → Py TallyUpd
    | [] => .error .indexError
    | f :: fs => .ok ⟨f :: fs, f⟩

/-- The tallies in `partition.updaters` (partition/partition.py:137-147), by the names they are registered under. -/
abbrev Registry := Dict String TallyUpd

/-- The `_cache` of each object, restricted to tallies (partition/partition.py:36). -/
abbrev TallyCaches (P : Type) := ℕ → Dict String (Dict P Num)

/-- `Partition.__getitem__` (partition/partition.py:197-208) with `Tally.__call__`, `_initialize_tally` and `_update_tally`
(updaters/tally.py:113-167): the cached value; or `KeyError` for a name that is not registered; or the tally of the plan if
there is no parent; or `parent[alias]` corrected by the flows.  `limit` is the recursion limit. -/
def tallyGet (F : Frame V P) (reg : Registry) : ℕ → String → ℕ → M (TallyCaches P) (Dict P Num)
  | 0, _, _ => M.raise .recursionError
  | limit + 1, name, p => do
    let c ← M.read
    match (c p).get? name with
    | some d => pure d
    | none =>
      match reg.get? name with
      | none => M.raise .keyError
      | some u =>
        match F.view p with
        | none => M.raise .attributeError
        | some v =>
          match v.parent with
          | none => store p name (tallyInit (tallyFromNode F.data u.fields) v.assignment.mapping)
          | some q => do
            let prev ← tallyGet F reg limit u.aliasName q
            let flows ← M.lift (slot v.flows)
            let d ← M.lift (tallyStep (tallyFromNode F.data u.fields) flows prev)
            store p name d
where
  /-- `self._cache[key] = ...; return self._cache[key]` (partition/partition.py:206-208) -/
  store (p : ℕ) (name : String) (d : Dict P Num) : M (TallyCaches P) (Dict P Num) := do
    M.modify (fun c i => if i = p then (c p).set name d else c i)
    pure d

/-- Objects and their caches. -/
structure TallyWorld (V P : Type) where
  frame : Frame V P
  caches : TallyCaches P

/-- One operation of the user or of the chain (partition/partition.py:176-208, chain.py:181). -/
inductive TallyOp (V P : Type)
  | create (assignment : Dict V P)
  | flip (p : ℕ) (flips : Dict V P)
  | lookup (p : ℕ) (name : String) (limit : ℕ)
  | eraseParent (p : ℕ)

/-- Perform an operation (partition/partition.py:49-208, chain.py:181); an exception leaves the state as it was when it was
raised. -/
def TallyWorld.step (reg : Registry) (W : TallyWorld V P) : TallyOp V P → TallyWorld V P
  | .create d => match W.frame.create d with
    | .ok F => ⟨F, W.caches⟩
    | .error _ => W
  | .flip p flips => match W.frame.flip p flips with
    | .ok F => ⟨F, W.caches⟩
    | .error _ => W
  | .lookup p name limit => ⟨W.frame, (tallyGet W.frame reg limit name p W.caches).2⟩
  | .eraseParent p => ⟨W.frame.eraseParent p, W.caches⟩

/-- The objects after a history on the graph `D` whose other updaters are `ups` (partition/partition.py:49-208). -/
def TallyWorld.after (D : GraphData V) (ups : List Key) (reg : Registry) (ops : List (TallyOp V P)) : TallyWorld V P :=
  ops.foldl (TallyWorld.step reg) ⟨⟨D, ups, [], [], []⟩, fun _ => Dict.empty⟩

/-- `partition[name]` (partition/partition.py:197-208). -/
def TallyWorld.get (reg : Registry) (W : TallyWorld V P) (p : ℕ) (name : String) (limit : ℕ) : Py (Dict P Num) :=
  (tallyGet W.frame reg limit name p W.caches).1

end GC

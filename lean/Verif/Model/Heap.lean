import Verif.Model.Updaters

/-!
# Partition objects: caches, parents, lazy updaters

Model of `gerrychain/partition/partition.py` together with the wrappers of `gerrychain/updaters/flows.py`
(`on_flow`, `on_edge_flow`) and the updater functions that look up other updaters.  Objects live in a heap; the
dictionaries of an `Assignment` are heap cells of their own so that sharing between parent and child is visible.
-/

set_option autoImplicit false

namespace GC

variable {V P : Type} [LinearOrder V] [DecidableEq P]

/-- Names under which the modelled updaters are registered in `partition.updaters`.  A `Tally` is identified with
its list of fields, a `DataTally` with its column, an `Election` with its `parties_to_columns` (each updater is
registered under its own alias). -/
inductive Key
  | cutEdges | cutEdgesByPart | tally (fields : List String) | dataTally (col : String)
  | boundaryNodes | extBoundarySet | extBoundary | intBoundary | perimeter
  | election (parties : List (String × String)) | countySplits (field : String)
  deriving DecidableEq, Repr

/-- `ElectionResults` (updaters/election.py:214-244): `totals_for_party`, `regions` and `totals`.  The percentages
are computed from these on demand in `Verif.Model.Election`. -/
structure ElectionVal (P : Type) where
  totalsForParty : Dict String (Dict P Num)
  regions : List P
  totals : Dict P Num
  deriving DecidableEq

/-- Values returned by updaters. -/
inductive Val (V P : Type)
  | edgeSet (s : Finset (V × V))
  | edgesByPart (d : Dict P (Finset (V × V)))
  | nums (d : Dict P Num)
  | nodeSet (s : Finset V)
  | nodesByPart (d : Dict P (Finset V))
  | rats (d : Dict P ℚ)
  | election (r : ElectionVal P)
  | counties (d : Dict String (CountyInfo V P))
  deriving DecidableEq

/-- A partition object (slots at partition/partition.py:27-37).  `partsRef`/`mapRef` are the addresses of the two
dictionaries of its `Assignment`; `_cache` lives in `Caches`.  `edgeFlows = none` models an unset slot. -/
structure PObj (V P : Type) where
  partsRef : ℕ
  mapRef : ℕ
  parent : Option ℕ
  flips : Option (Dict V P)
  flows : Option (Dict P (Flow V))
  edgeFlows : Option (Dict P (Flow (V × V)))

/-- Everything except the caches: the (frozen) graph, the updaters dictionary, the dictionaries of the assignments
and the partition objects (the `i`-th created object has address `i`). -/
structure Frame (V P : Type) where
  data : GraphData V
  updaters : List Key
  partsCells : List (Dict P (Finset V))
  mapCells : List (Dict V P)
  objs : List (PObj V P)

/-- `_cache` of each object. -/
abbrev Caches (V P : Type) := ℕ → Dict Key (Val V P)

/-- What code holding object `p` sees: its fields, with the assignment dereferenced. -/
structure View (V P : Type) where
  assignment : Assignment V P
  parent : Option ℕ
  flips : Option (Dict V P)
  flows : Option (Dict P (Flow V))
  edgeFlows : Option (Dict P (Flow (V × V)))

/-- Dereference object `p`. -/
def Frame.view (F : Frame V P) (p : ℕ) : Option (View V P) := do
  let o ← F.objs[p]?
  let parts ← F.partsCells[o.partsRef]?
  let mapping ← F.mapCells[o.mapRef]?
  return ⟨⟨parts, mapping⟩, o.parent, o.flips, o.flows, o.edgeFlows⟩

/-- `bool(partition)` is `len(partition.parts) > 0` (partition/partition.py:173-174 defines `__len__`), so
`if not partition.parent` also holds for a parent without parts. -/
def Frame.truthyParent (F : Frame V P) (v : View V P) : Option ℕ :=
  match v.parent with
  | none => none
  | some q => match F.view q with
    | some w => if w.assignment.parts.entries.isEmpty then none else some q
    | none => none

/-- `m.write`: update one cache slot. -/
def cacheSet (p : ℕ) (k : Key) (x : Val V P) : M (Caches V P) Unit :=
  M.modify (fun c i => if i = p then (c p).set k x else c i)

/-- Reading `d[k]` from the `defaultdict` of edge sets cached under `key` on object `p` stores the default. -/
def touchEdges (p : ℕ) (key : Key) (part : P) : M (Caches V P) Unit := do
  let c ← M.read
  match (c p).get? key with
  | some (.edgesByPart d) => cacheSet p key (.edgesByPart (d.touch part ∅))
  | _ => pure ()

/-- Same for a `defaultdict` of node sets. -/
def touchNodes (p : ℕ) (key : Key) (part : P) : M (Caches V P) Unit := do
  let c ← M.read
  match (c p).get? key with
  | some (.nodesByPart d) => cacheSet p key (.nodesByPart (d.touch part ∅))
  | _ => pure ()

/-- Same for a `defaultdict` of numbers. -/
def touchRats (p : ℕ) (key : Key) (part : P) : M (Caches V P) Unit := do
  let c ← M.read
  match (c p).get? key with
  | some (.rats d) => cacheSet p key (.rats (d.touch part 0))
  | _ => pure ()

/-- Type projections of updater values; the `TypeError` cases never happen for registered updaters. -/
def Val.asEdgeSet : Val V P → Py (Finset (V × V)) | .edgeSet s => .ok s | _ => .error .typeError
/-- projection -/
def Val.asEdgesByPart : Val V P → Py (Dict P (Finset (V × V))) | .edgesByPart s => .ok s | _ => .error .typeError
/-- projection -/
def Val.asNums : Val V P → Py (Dict P Num) | .nums s => .ok s | _ => .error .typeError
/-- projection -/
def Val.asNodeSet : Val V P → Py (Finset V) | .nodeSet s => .ok s | _ => .error .typeError
/-- projection -/
def Val.asNodesByPart : Val V P → Py (Dict P (Finset V)) | .nodesByPart s => .ok s | _ => .error .typeError
/-- projection -/
def Val.asRats : Val V P → Py (Dict P ℚ) | .rats s => .ok s | _ => .error .typeError
/-- projection -/
def Val.asElection : Val V P → Py (ElectionVal P) | .election s => .ok s | _ => .error .typeError
/-- projection -/
def Val.asCounties : Val V P → Py (Dict String (CountyInfo V P)) | .counties s => .ok s | _ => .error .typeError

/-- `partition.edge_flows`; an unset slot falls through to `__getattr__`, which raises `KeyError`
(partition/partition.py:209-210). -/
def slot {α : Type} : Option α → Py α
  | some x => .ok x
  | none => .error .keyError

/-- `ElectionResults.__init__` (updaters/election.py:232-239): `totals[region] = sum(counts[party][region])`. -/
def electionResults (parties : List (String × String)) (counts : Dict String (Dict P Num)) (regions : List P) :
    Py (ElectionVal P) := do
  let totals ← regions.foldlM (fun (t : Dict P Num) region => do
    let s ← parties.foldlM (fun (acc : Num) pc => do
      let c ← counts.get pc.1
      let x ← c.get region
      return acc + x) 0
    return t.set region s) Dict.empty
  return ⟨counts, regions, totals⟩

/-- The body of each updater, given `rec k q` = `partition_q[k]`. -/
def compute (F : Frame V P) (rec : Key → ℕ → M (Caches V P) (Val V P)) (k : Key) (p : ℕ) :
    M (Caches V P) (Val V P) :=
  match F.view p with
  | none => M.raise .attributeError
  | some v =>
    let G := F.data.graph
    let a := v.assignment
    match k with
    -- updaters/cut_edges.py:99-120
    | .cutEdges =>
      match F.truthyParent v with
      | none => pure (.edgeSet (cutEdgesInit G a.mapping))
      | some q => do
        let flips ← M.lift (slot v.flips)
        let w ← M.lift (slot (F.view q))
        let x ← rec .cutEdges q
        let prev ← M.lift x.asEdgeSet
        pure (.edgeSet (cutEdgesStep G flips w.assignment.mapping a.mapping prev))
    -- updaters/cut_edges.py:59-96 with on_edge_flow (updaters/flows.py:197-211)
    | .cutEdgesByPart =>
      match F.truthyParent v with
      | none => do
        let d ← M.lift (putEdgesIntoParts (cutEdgesInit G a.mapping) a.mapping)
        pure (.edgesByPart d)
      | some q => do
        let ef ← M.lift (slot v.edgeFlows)
        let x ← rec .cutEdgesByPart q
        let prev ← M.lift x.asEdgesByPart
        let d ← ef.entries.foldlM (fun (d : Dict P (Finset (V × V))) e => do
          touchEdges q .cutEdgesByPart e.1
          let old := (prev.get? e.1).getD ∅
          pure (d.set e.1 ((old ∪ e.2.inn) \ e.2.out))) prev
        pure (.edgesByPart d)
    -- updaters/tally.py:113-116
    | .tally fields =>
      match v.parent with
      | none => pure (.nums (tallyInit (tallyFromNode F.data fields) a.mapping))
      | some q => do
        let x ← rec (.tally fields) q
        let prev ← M.lift x.asNums
        let flows ← M.lift (slot v.flows)
        let d ← M.lift (tallyStep (tallyFromNode F.data fields) flows prev)
        pure (.nums d)
    -- updaters/tally.py:37-66 with on_flow (updaters/flows.py:88-102)
    | .dataTally col =>
      match v.parent with
      | none => pure (.nums (tallyInit (F.data.col col) a.mapping))
      | some q => do
        let x ← rec (.dataTally col) q
        let prev ← M.lift x.asNums
        let flows ← M.lift (slot v.flows)
        let d ← M.lift (dataTallyStep (F.data.col col) flows prev)
        pure (.nums d)
    -- updaters/compactness.py:8-25
    | .boundaryNodes =>
      match F.truthyParent v with
      | none => pure (.nodeSet (boundaryNodesInit F.data))
      | some q => rec .boundaryNodes q
    -- updaters/compactness.py:28-67 with on_flow
    | .extBoundarySet =>
      match v.parent with
      | none => do
        let x ← rec .boundaryNodes p
        let bn ← M.lift x.asNodeSet
        let d ← M.lift (extSetInit bn a.mapping)
        pure (.nodesByPart d)
      | some q => do
        let x ← rec .extBoundarySet q
        let prev ← M.lift x.asNodesByPart
        let flows ← M.lift (slot v.flows)
        let d ← flows.entries.foldlM (fun (d : Dict P (Finset V)) e => do
          touchNodes q .extBoundarySet e.1
          let y ← rec .boundaryNodes p
          let bn ← M.lift y.asNodeSet
          pure (d.set e.1 (extSetPart bn ((prev.get? e.1).getD ∅) e.2.inn e.2.out))) prev
        pure (.nodesByPart d)
    -- updaters/compactness.py:70-117 with on_flow
    | .extBoundary =>
      match v.parent with
      | none => do
        let x ← rec .boundaryNodes p
        let bn ← M.lift x.asNodeSet
        let d ← M.lift (extInit F.data bn a.mapping)
        pure (.rats d)
      | some q => do
        let x ← rec .extBoundary q
        let prev ← M.lift x.asRats
        let flows ← M.lift (slot v.flows)
        let d ← flows.entries.foldlM (fun (d : Dict P ℚ) e => do
          touchRats q .extBoundary e.1
          let y ← rec .boundaryNodes p
          let bn ← M.lift y.asNodeSet
          pure (d.set e.1 (extPart F.data bn ((prev.get? e.1).getD 0) e.2.inn e.2.out))) prev
        pure (.rats d)
    -- updaters/compactness.py:120-168 with on_edge_flow
    | .intBoundary =>
      match F.truthyParent v with
      | none => do
        let d ← a.parts.keys.foldlM (fun (d : Dict P ℚ) part => do
          let x ← rec .cutEdgesByPart p
          let ce ← M.lift x.asEdgesByPart
          touchEdges p .cutEdgesByPart part
          pure (d.set part (((ce.get? part).getD ∅).sum F.data.sharedPerim))) Dict.empty
        pure (.rats d)
      | some q => do
        let ef ← M.lift (slot v.edgeFlows)
        let x ← rec .intBoundary q
        let prev ← M.lift x.asRats
        let d ← ef.entries.foldlM (fun (d : Dict P ℚ) e => do
          let old ← M.lift (prev.get e.1)
          pure (d.set e.1 (intPart F.data old e.2.inn e.2.out))) prev
        pure (.rats d)
    -- updaters/compactness.py:183-214
    | .perimeter => do
      let d ← a.parts.keys.foldlM (fun (d : Dict P ℚ) part => do
        let x ← rec .extBoundary p
        let ext ← M.lift x.asRats
        touchRats p .extBoundary part
        let y ← rec .intBoundary p
        let int ← M.lift y.asRats
        let i ← M.lift (int.get part)
        pure (d.set part ((ext.get? part).getD 0 + i))) Dict.empty
      pure (.rats d)
    -- updaters/election.py:138-167
    | .election parties => do
      let prevs ← (match v.parent with
        | none => pure none
        | some q => do
          let x ← rec (.election parties) q
          let r ← M.lift x.asElection
          pure (some r.totalsForParty))
      let counts ← parties.foldlM (fun (d : Dict String (Dict P Num)) pc =>
        match prevs with
        | none => pure (d.set pc.1 (tallyInit (F.data.col pc.2) a.mapping))
        | some prevs => do
          let prev ← M.lift (prevs.get pc.1)
          let flows ← M.lift (slot v.flows)
          let t ← M.lift (dataTallyStep (F.data.col pc.2) flows prev)
          pure (d.set pc.1 t)) Dict.empty
      let r ← M.lift (electionResults parties counts a.parts.keys)
      pure (.election r)
    -- updaters/county_splits.py:57-117
    | .countySplits field =>
      match F.truthyParent v with
      | none => do
        let d ← M.lift (countySplitsInit G.nodes (F.data.region field) a.mapping)
        pure (.counties d)
      | some q => do
        let x ← rec (.countySplits field) q
        let prev ← M.lift x.asCounties
        let d ← M.lift (countySplitsStep a.mapping prev)
        pure (.counties d)

/-- `Partition.__getitem__` (partition/partition.py:197-208): return the cached value, else compute and cache.
`limit` is python's recursion limit (each nested `__getitem__` uses one unit); exceeding it raises `RecursionError`. -/
def getitem (F : Frame V P) : ℕ → Key → ℕ → M (Caches V P) (Val V P)
  | 0, _, _ => M.raise .recursionError
  | limit + 1, k, p => do
    let c ← M.read
    match (c p).get? k with
    | some x => pure x
    | none =>
      if k ∈ F.updaters then do
        let x ← compute F (getitem F limit) k p
        cacheSet p k x
        pure x
      else M.raise .keyError

/-- `Partition(graph, assignment)` (partition/partition.py:62, `_first_time` 122-151): `KeyError` when the keys of
the assignment are not the nodes of the graph.  Allocates the two dictionaries and the object. -/
def Frame.create (F : Frame V P) (d : Dict V P) : Py (Frame V P) := do
  let a ← Assignment.fromDict d
  if a.mapping.keys.toFinset ≠ F.data.graph.nodes then .error .keyError
  else return { F with
    partsCells := F.partsCells ++ [a.parts]
    mapCells := F.mapCells ++ [a.mapping]
    objs := F.objs ++ [⟨F.partsCells.length, F.mapCells.length, none, none, none, none⟩] }

/-- `partition.flip(flips)` (partition/partition.py:176-185, `_from_parent` 153-166).  `assignment.copy()` allocates
two new dictionaries, `update_flows` then updates the dictionaries of the new assignment in place. -/
def Frame.flip (F : Frame V P) (p : ℕ) (flips : Dict V P) : Py (Frame V P) := do
  let v ← (match F.view p with | some v => .ok v | none => .error .attributeError)
  let flows ← flowsFromChanges v.assignment.mapping flips
  let copied ← v.assignment.copy
  let pr := F.partsCells.length
  let mr := F.mapCells.length
  let F1 := { F with partsCells := F.partsCells ++ [copied.parts], mapCells := F.mapCells ++ [copied.mapping] }
  let b ← copied.updateFlows flows
  let F2 := { F1 with partsCells := F1.partsCells.set pr b.parts, mapCells := F1.mapCells.set mr b.mapping }
  let ef ← (if Key.cutEdges ∈ F.updaters then
      some <$> computeEdgeFlows F.data.graph flips v.assignment.mapping b.mapping
    else .ok none)
  return { F2 with objs := F2.objs ++ [⟨pr, mr, some p, some flips, some flows, ef⟩] }

/-- `partition.parent = None`, done by the chain (chain.py:181). -/
def Frame.eraseParent (F : Frame V P) (p : ℕ) : Frame V P :=
  match F.objs[p]? with
  | some o => { F with objs := F.objs.set p { o with parent := none } }
  | none => F

/-- The whole mutable state. -/
structure Heap (V P : Type) where
  frame : Frame V P
  caches : Caches V P

/-- One user-visible operation on partitions. -/
inductive Op (V P : Type)
  | create (assignment : Dict V P)
  | flip (p : ℕ) (flips : Dict V P)
  | lookup (p : ℕ) (k : Key) (limit : ℕ)
  | eraseParent (p : ℕ)

/-- Perform an operation; an exception is caught by the caller and leaves the state as it was when it was raised. -/
def Heap.step (H : Heap V P) : Op V P → Heap V P
  | .create d => match H.frame.create d with
    | .ok F => ⟨F, H.caches⟩
    | .error _ => H
  | .flip p flips => match H.frame.flip p flips with
    | .ok F => ⟨F, H.caches⟩
    | .error _ => H
  | .lookup p k limit => ⟨H.frame, (getitem H.frame limit k p H.caches).2⟩
  | .eraseParent p => ⟨H.frame.eraseParent p, H.caches⟩

/-- A whole history. -/
def Heap.run (H : Heap V P) (ops : List (Op V P)) : Heap V P := ops.foldl Heap.step H

/-- The empty heap: a graph and an updaters dictionary, no partitions yet. -/
def Heap.start (D : GraphData V) (updaters : List Key) : Heap V P := ⟨⟨D, updaters, [], [], []⟩, fun _ => Dict.empty⟩

end GC

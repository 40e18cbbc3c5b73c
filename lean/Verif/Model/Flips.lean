import Verif.Model.Recom

/-!
# Flip proposals

Model of gerrychain/proposals/proposals.py.  Every node of a partition is assigned, so the look-ups
`partition.assignment.mapping[...]` do not raise; where the label is only compared, the model uses `get?`.  Sets are offered to
`random.choice` in a fixed order; the choice is arbitrary, so the order does not matter.
-/

set_option linter.unusedSectionVars false
set_option autoImplicit false

namespace GC

variable {V P S X : Type} [LinearOrder V] [LinearOrder P]

/-- `index = random.choice((0, 1)); edge[index], edge[1 - index]` (proposals/proposals.py:39-40, 62-64, 92-93) -/
def chooseEnd (R : Rand S) (edge : V × V) : M S (V × V) := do
  let index ← R.choice [(0 : ℕ), 1]
  pure (if index = 0 then edge else (edge.2, edge.1))

/-- `propose_any_node_flip` (proposals/proposals.py:8-22): the flips -/
def anyNodeFlip (R : Rand S) (G : Graph V) (a : Assignment V P) : M S (Dict V P) := do
  let node ← R.choice (iter G.nodes)
  let newpart ← R.choice a.parts.keys
  pure ⟨[(node, newpart)]⟩

/-- `propose_random_flip` (proposals/proposals.py:79-95): the flips, `none` when the partition itself is returned -/
def randomFlip (R : Rand S) (a : Assignment V P) (cuts : Finset (V × V)) : M S (Option (Dict V P)) :=
  if cuts = ∅ then pure none
  else do
    let edge ← R.choice (iterE cuts)
    let ends ← chooseEnd R edge
    let p ← M.lift (a.mapping.get ends.2)
    pure (some ⟨[(ends.1, p)]⟩)

/-- `propose_flip_every_district` (proposals/proposals.py:25-46): the flips; the list is `partition["cut_edges_by_part"].values()` -/
def everyDistrictFlip (R : Rand S) (a : Assignment V P) : List (Finset (V × V)) → Dict V P → M S (Dict V P)
  | [], flips => pure flips
  | edges :: rest, flips => do
    let edge ← R.choice (iterE edges)
    let ends ← chooseEnd R edge
    let p ← M.lift (a.mapping.get ends.2)
    everyDistrictFlip R a rest (flips.set ends.1 p)

/-- `propose_chunk_flip` (proposals/proposals.py:49-76): the flips -/
def chunkFlip (R : Rand S) (G : Graph V) (a : Assignment V P) (cuts : Finset (V × V)) : M S (Dict V P) := do
  let edge ← R.choice (iterE cuts)
  let ends ← chooseEnd R edge
  let p ← M.lift (a.mapping.get ends.1)
  pure (assignAll Dict.empty ((G.neighbors ends.1).filter (fun u => a.mapping.get? u ≠ a.mapping.get? ends.1)) p)

/-- `b_nodes` of `slow_reversible_propose_bi` (proposals/proposals.py:114-116) -/
def cutEnds (cuts : Finset (V × V)) : Finset V := cuts.image Prod.fst ∪ cuts.image Prod.snd

/-- `slow_reversible_propose_bi` (proposals/proposals.py:98-130): the flips.  `list.remove` raises `ValueError` when the label is
not in the list. -/
def slowFlipBi (R : Rand S) (G : Graph V) (a : Assignment V P) (cuts : Finset (V × V)) : M S (Dict V P) := do
  let node ← R.choice (iter (cutEnds cuts))
  let labels := ((iter (G.neighbors node)).filterMap a.mapping.get?).dedup
  let own ← M.lift (a.mapping.get node)
  if own ∈ labels then do
    let p ← R.choice (labels.erase own)
    pure ⟨[(node, p)]⟩
  else M.raise .valueError

/-- `b_nodes` of `slow_reversible_propose` (proposals/proposals.py:150-154): a set, here a list without repetitions -/
def flipPairs (a : Assignment V P) (cuts : Finset (V × V)) : List (V × P) :=
  ((iterE cuts).filterMap (fun e => (a.mapping.get? e.2).map (fun p => (e.1, p))) ++
    (iterE cuts).filterMap (fun e => (a.mapping.get? e.1).map (fun p => (e.2, p)))).dedup

/-- `slow_reversible_propose` (proposals/proposals.py:136-157): the flips -/
def slowFlip (R : Rand S) (a : Assignment V P) (cuts : Finset (V × V)) : M S (Dict V P) := do
  let flip ← R.choice (flipPairs a cuts)
  pure ⟨[flip]⟩

/-- A proposal that looks up an updater, computes flips and flips; `none` stands for `return partition`.  The look-up is not
repeated when the code repeats it: later look-ups return the cached value. -/
def proposeWith {α : Type} (k : Key) (conv : Val V P → Py α) (f : Graph V → Assignment V P → α → M X (Option (Dict V P)))
    (limit st : ℕ) : M (World V P X) ℕ := do
  let v ← viewObj st
  let w ← (M.read : M (World V P X) (World V P X))
  let x ← lookupKey k limit st
  let y ← M.lift (conv x)
  let r ← M.onRest (f w.1.frame.data.graph v.assignment y)
  match r with
  | none => pure st
  | some flips => flipObj st flips

/-- `propose_random_flip` (proposals/proposals.py:79-95) on partition objects -/
def proposeRandomFlip (R : Rand X) (limit st : ℕ) : M (World V P X) ℕ :=
  proposeWith .cutEdges Val.asEdgeSet (fun _ a cuts => randomFlip R a cuts) limit st

/-- `propose_chunk_flip` (proposals/proposals.py:49-76) on partition objects -/
def proposeChunkFlip (R : Rand X) (limit st : ℕ) : M (World V P X) ℕ :=
  proposeWith .cutEdges Val.asEdgeSet (fun G a cuts => do return some (← chunkFlip R G a cuts)) limit st

/-- `slow_reversible_propose_bi` (proposals/proposals.py:98-130) on partition objects -/
def slowReversibleProposeBi (R : Rand X) (limit st : ℕ) : M (World V P X) ℕ :=
  proposeWith .cutEdges Val.asEdgeSet (fun G a cuts => do return some (← slowFlipBi R G a cuts)) limit st

/-- `slow_reversible_propose` (proposals/proposals.py:136-157) on partition objects -/
def slowReversiblePropose (R : Rand X) (limit st : ℕ) : M (World V P X) ℕ :=
  proposeWith .cutEdges Val.asEdgeSet (fun _ a cuts => do return some (← slowFlip R a cuts)) limit st

/-- `propose_flip_every_district` (proposals/proposals.py:25-46) on partition objects; the values of the dictionary are read key
by key -/
def proposeFlipEveryDistrict (R : Rand X) (limit st : ℕ) : M (World V P X) ℕ :=
  proposeWith .cutEdgesByPart Val.asEdgesByPart (fun _ a d => do
    return some (← everyDistrictFlip R a (d.keys.map (fun p => (d.get? p).getD ∅)) Dict.empty)) limit st

/-- `propose_any_node_flip` (proposals/proposals.py:8-22) on partition objects -/
def proposeAnyNodeFlip (R : Rand X) (st : ℕ) : M (World V P X) ℕ := do
  let v ← viewObj st
  let w ← (M.read : M (World V P X) (World V P X))
  let flips ← M.onRest (anyNodeFlip R w.1.frame.data.graph v.assignment)
  flipObj st flips

/-! ### The metagraph -/

/-- `all_cut_edge_flips` (metagraph.py:20-31): the flips, each of one node -/
def allCutEdgeFlips (a : Assignment V P) (cuts : Finset (V × V)) : Py (List (V × P)) :=
  (iterE cuts).foldr (fun e acc => do
    let p ← a.mapping.get e.2
    let q ← a.mapping.get e.1
    let l ← acc
    return (e.1, p) :: (e.2, q) :: l) (.ok [])

/-- the loop of `all_valid_states_one_flip_away` (metagraph.py:58-61), run to its end -/
def validLoop (valid : ℕ → M (World V P X) Bool) (st : ℕ) : List (V × P) → M (World V P X) (List ℕ)
  | [] => pure []
  | f :: fs => do
    let q ← flipObj st ⟨[f]⟩
    let b ← valid q
    let rest ← validLoop valid st fs
    pure (if b then q :: rest else rest)

/-- `list(all_valid_states_one_flip_away(partition, constraints))` (metagraph.py:34-61); `valid` is `is_valid` (53-56).
Simplified: the labels of all cut edges are read before the first flip; the partition does not change in between. -/
def allValidStates (valid : ℕ → M (World V P X) Bool) (limit st : ℕ) : M (World V P X) (List ℕ) := do
  let v ← viewObj st
  let x ← lookupKey .cutEdges limit st
  let cuts ← M.lift x.asEdgeSet
  let flips ← M.lift (allCutEdgeFlips v.assignment cuts)
  validLoop valid st flips

/-- `list(all_valid_flips(partition, constraints))` (metagraph.py:64-80): `state.flips` of every state.  Simplified: the flips are
read after all states were made; they never change. -/
def allValidFlips (valid : ℕ → M (World V P X) Bool) (limit st : ℕ) : M (World V P X) (List (Option (Dict V P))) := do
  let l ← allValidStates valid limit st
  let s ← (M.read : M (World V P X) (World V P X))
  pure (l.map (fun r => (s.1.frame.view r).bind (·.flips)))

/-- `metagraph_degree` (metagraph.py:83-100) -/
def metagraphDegree (valid : ℕ → M (World V P X) Bool) (limit st : ℕ) : M (World V P X) ℕ := do
  let l ← allValidStates valid limit st
  pure l.length

end GC

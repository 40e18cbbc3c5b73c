import Verif.Model.Bipartition
import Verif.Model.HeapChain

/-!
# ReCom proposals

Model of gerrychain/proposals/tree_proposals.py.
-/

set_option linter.unusedSectionVars false
set_option autoImplicit false

namespace GC

variable {V P S X : Type} [LinearOrder V] [LinearOrder P]

/-- `tot_pairs` (proposals/tree_proposals.py:97): `n * (n - 1) / 2`, an even number divided by two -/
def totPairs (n : ℕ) : ℕ := n * (n - 1) / 2

/-- the labels of the two ends of an edge (proposals/tree_proposals.py:109-112) -/
def endLabels (a : Assignment V P) (e : V × V) : Py (P × P) := do
  let p ← a.mapping.get e.1
  let q ← a.mapping.get e.2
  return (p, q)

/-- the nodes of the two districts (proposals/tree_proposals.py:118-120) -/
def mergedNodes (a : Assignment V P) (p q : P) : Py (Finset V) := do
  let s ← a.parts.get p
  let t ← a.parts.get q
  return s ∪ t

/-- the split of one pair of districts (proposals/tree_proposals.py:118-130) -/
def recomPair (method : Method V S) (G : Graph V) (a : Assignment V P) (pop : V → ℚ) (target eps : ℚ) (pq : P × P) :
    M S (Dict V P) := do
  let s ← M.lift (mergedNodes a pq.1 pq.2)
  epsilonTreeBipartition method (G.subgraph s) [pq.1, pq.2] pop target eps

/-- `try: m; except ReselectException: h` (proposals/tree_proposals.py:104, 133-138); other exceptions are raised again -/
def M.onReselect {α : Type} (m h : M S α) : M S α := fun w =>
  match m w with
  | (.error .reselectException, w') => h w'
  | r => r

/-- The two nested loops of `recom` (proposals/tree_proposals.py:103-144).  `cuts` is `partition["cut_edges"]`, `bad` the set
`bad_district_pairs`.  The condition of the outer loop is tested again in the inner loop, where `bad` has not changed.  Both
loops may be endless; the model gives up with `outOfFuel`. -/
def recomLoop (R : Rand S) (method : Method V S) (G : Graph V) (a : Assignment V P) (cuts : Finset (V × V)) (pop : V → ℚ)
    (target eps : ℚ) : ℕ → Finset (P × P) → M S (Dict V P)
  | 0, _ => M.raise .outOfFuel
  | n + 1, bad =>
    if bad.card < totPairs a.parts.keys.length then do
      let edge ← R.choice (iterE cuts)
      let pq ← M.lift (endLabels a edge)
      if sortPair pq ∈ bad then recomLoop R method G a cuts pop target eps n bad
      else
        M.onReselect (recomPair method G a pop target eps (sortPair pq))
          (recomLoop R method G a cuts pop target eps n (insert (sortPair pq) bad))
    else M.raise .metagraphError

/-- computations that only use the rest of the world, such as the random generator -/
def M.onRest {α : Type} (m : M X α) : M (World V P X) α := fun s => ((m s.2).1, (s.1, (m s.2).2))

/-- `partition[key]` (partition/partition.py:197-208) on the heap -/
def lookupKey (k : Key) (limit : ℕ) (st : ℕ) : M (World V P X) (Val V P) := fun s =>
  ((getitem s.1.frame limit k st s.1.caches).1, (s.1.step (.lookup st k limit), s.2))

/-- `partition.flip(flips)` (partition/partition.py:176-185) on the heap: the address of the new partition -/
def flipObj (st : ℕ) (flips : Dict V P) : M (World V P X) ℕ := fun s =>
  match s.1.frame.flip st flips with
  | .ok F => (.ok s.1.frame.objs.length, (⟨F, s.1.caches⟩, s.2))
  | .error e => (.error e, s)

/-- `partition.assignment` on the heap -/
def viewObj (st : ℕ) : M (World V P X) (View V P) := fun s =>
  match s.1.frame.view st with
  | some v => (.ok v, s)
  | none => (.error .attributeError, s)

/-- `recom` (proposals/tree_proposals.py:36-146) as a proposal on partition objects; `method` has `pop_col`, `node_repeats`
and `region_surcharge` applied (99-101).  `partition["cut_edges"]` is looked up once: later lookups return the cached value.
Without a pair of districts the loop is not entered (103) and the error is raised at once (140-144). -/
def recom (R : Rand X) (method : Method V X) (pop : V → ℚ) (target eps : ℚ) (fuel limit : ℕ) (st : ℕ) : M (World V P X) ℕ := do
  let v ← viewObj st
  let w ← (M.read : M (World V P X) (World V P X))
  if totPairs v.assignment.parts.keys.length = 0 then M.raise .metagraphError
  else do
    let x ← lookupKey .cutEdges limit st
    let cuts ← M.lift x.asEdgeSet
    let flips ← M.onRest (recomLoop R method w.1.frame.data.graph v.assignment cuts pop target eps fuel ∅)
    flipObj st flips

/-- `dist_pair_edges` (proposals/tree_proposals.py:191-205).  Every node is assigned, so `mapping[...]` does not raise. -/
def distPairEdges (G : Graph V) (m : Dict V P) (p q : P) : Finset (V × V) :=
  G.edges.filter (fun e => (m.get? e.1 = some p ∧ m.get? e.2 = some q) ∨ (m.get? e.1 = some q ∧ m.get? e.2 = some p))

/-- `bounded_balance_edge_fn` (proposals/tree_proposals.py:207-213) -/
def boundedBalance (bound : ℤ) (f : PopGraph V → M S (List (Cut V))) (h : PopGraph V) : M S (List (Cut V)) := do
  let cuts ← f h
  if (cuts.length : ℤ) > bound then M.raise .reversibilityError else pure cuts

/-- all ordered pairs of districts (proposals/tree_proposals.py:222-226) -/
def allPairs (a : Assignment V P) : List (P × P) :=
  let parts := a.parts.keys.insertionSort (· ≤ ·)
  parts.flatMap (fun p => parts.map (fun q => (p, q)))

/-- the flips of a cut (proposals/tree_proposals.py:248-253) -/
def cutFlips (p q : P) (all nodes : Finset V) : Dict V P :=
  assignAll (assignAll Dict.empty nodes p) (all \ nodes) q

/-- The candidate of `reversible_recom` (proposals/tree_proposals.py:228-256): `none` for the self-loops without a candidate,
otherwise the flips, the number of balanced cuts and the seam length of the new plan.  `span` and `balance` are
`uniform_spanning_tree` and `balance_edge_fn`; the arguments of `_bipartition_tree_random_all` have their defaults
(`node_repeats=1`, `max_attempts=100000`), and `choice` has its default `random.choice`.  Simplified: the seam is computed from the new assignment; the partition object is
created only when it is returned (`reversibleRecom`). -/
def revCandidate (R : Rand S) (span : Graph V → M S (WTree V)) (balance : PopGraph V → M S (List (Cut V))) (bound : ℤ)
    (repeatUntilValid : Bool) (fuel : ℕ) (G : Graph V) (a : Assignment V P) (pop : V → ℚ) (target eps : ℚ) :
    M S (Option (Dict V P × ℕ × ℕ)) := do
  let pair ← R.choice (allPairs a)
  let edges := distPairEdges G a.mapping pair.1 pair.2
  if pair.1 = pair.2 ∨ edges = ∅ then pure none
  else do
    let edge ← R.choice (iterE edges)
    let pq ← M.lift (endLabels a edge)
    let s ← M.lift (mergedNodes a pq.1 pq.2)
    let cuts ← bipartitionRandomAll ⟨span, boundedBalance bound balance, 1, some 100000⟩ repeatUntilValid fuel none
      (G.subgraph s) pop target eps
    if cuts = [] then pure none
    else do
      let c ← R.choice cuts
      let flips := cutFlips pq.1 pq.2 (G.subgraph s).nodes c.subset
      let b ← M.lift (a.flip flips)
      pure (some (flips, cuts.length, (distPairEdges G b.mapping pair.1 pair.2).card))

/-- `prob` (proposals/tree_proposals.py:258) -/
def revProb (bound : ℤ) (nCuts seam : ℕ) : Py ℚ :=
  if (bound * seam : ℤ) = 0 then .error .zeroDivision else .ok ((nCuts : ℚ) / (bound * seam))

/-- `reversible_recom` (proposals/tree_proposals.py:149-267): the flips of the returned partition, `none` when the partition
itself is returned -/
def revFlips (R : Rand S) (span : Graph V → M S (WTree V)) (balance : PopGraph V → M S (List (Cut V))) (bound : ℤ)
    (repeatUntilValid : Bool) (fuel : ℕ) (G : Graph V) (a : Assignment V P) (pop : V → ℚ) (target eps : ℚ) :
    M S (Option (Dict V P)) := do
  let r ← revCandidate R span balance bound repeatUntilValid fuel G a pop target eps
  match r with
  | none => pure none
  | some (flips, nCuts, seam) => do
    let prob ← M.lift (revProb bound nCuts seam)
    if prob > 1 then M.raise .reversibilityError
    else do
      let x ← R.random
      if x < prob then pure (some flips) else pure none

/-- `reversible_recom` as a proposal on partition objects -/
def reversibleRecom (R : Rand X) (span : Graph V → M X (WTree V)) (balance : PopGraph V → M X (List (Cut V))) (bound : ℤ)
    (repeatUntilValid : Bool) (fuel : ℕ) (pop : V → ℚ) (target eps : ℚ) (st : ℕ) : M (World V P X) ℕ := do
  let v ← viewObj st
  let w ← (M.read : M (World V P X) (World V P X))
  let r ← M.onRest (revFlips R span balance bound repeatUntilValid fuel w.1.frame.data.graph v.assignment pop target eps)
  match r with
  | none => pure st
  | some flips => flipObj st flips

end GC

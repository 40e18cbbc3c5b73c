import Verif.Model.Heap
import Verif.Model.Contiguity
import Mathlib.Algebra.Order.Floor.Defs
import Mathlib.Algebra.Order.Round
import Mathlib.Data.Rat.Floor

/-!
# Locality splits

Model of `LocalitySplits` (updaters/locality_split_scores.py), a stateful updater that returns the same dictionary object from
every call.
-/

set_option linter.unusedSectionVars false
set_option autoImplicit false

namespace GC

variable {V P L : Type} [LinearOrder V] [DecidableEq P] [DecidableEq L]

/-- `collections.Counter(l)` (updaters/locality_split_scores.py:145). -/
def counter (l : List L) : Dict L ℕ := l.foldl (fun d x => d.modifyD x 0 (· + 1)) Dict.empty

/-- `self.locality_splits` (updaters/locality_split_scores.py:141-145): for every district the number of nodes per locality. -/
def localitySplits (localitydict : Dict V L) (parts : Dict P (Finset V)) : Py (Dict P (Dict L ℕ)) := do
  let l ← parts.entries.mapM (fun e => do
    let names ← (iter e.2).mapM (fun v => localitydict.get v)
    return (e.1, counter names))
  return ⟨l⟩

/-- `self.locality_splits_inv` (updaters/locality_split_scores.py:147-150). -/
def localitySplitsInv (splits : Dict P (Dict String ℕ)) : Dict String (Dict P ℕ) :=
  splits.entries.foldl (fun inv e =>
    e.2.entries.foldl (fun inv e2 => inv.modifyD e2.1 Dict.empty (fun d => d.set e.1 e2.2)) inv) Dict.empty

/-- `num_parts` (updaters/locality_split_scores.py:212-215). -/
def numParts (splits : Dict P (Dict String ℕ)) : ℕ := splits.values.foldl (fun n c => n + c.keys.length) 0

/-- `num_split_localities` (updaters/locality_split_scores.py:426-432). -/
def numSplitLocalities (inv : Dict String (Dict P ℕ)) : ℕ := inv.values.foldl (fun n d => if d.keys.length > 1 then n + 1 else n) 0

/-- The first loop of `num_pieces` (updaters/locality_split_scores.py:228-237): the districts met by each locality. -/
def localityIntersections (nodes : Finset V) (col : V → String) (m : Dict V P) : Py (Dict String (Finset P)) :=
  (iter nodes).foldlM (fun d n => do
    let part ← m.get n
    return d.modifyD (col n) ∅ (insert part)) Dict.empty

/-- `num_pieces` (updaters/locality_split_scores.py:228-251).  `ord` is the iteration order of the sets of districts. -/
def numPieces (ord : SetOrder P) (G : Graph V) (col : V → String) (a : Assignment V P) : Py ℕ := do
  let inter ← localityIntersections G.nodes col a.mapping
  inter.entries.foldlM (fun n e => (ord.list e.2).foldlM (fun n d => do
    let part ← a.parts.get d
    return n + (connectedComponents (G.subgraph (part.filter (fun x => col x = e.1)))).length) n) 0

/-- `naked_boundary` (updaters/locality_split_scores.py:264-274), given the cut edges. -/
def nakedBoundary (localitydict : Dict V String) (cuts : Finset (V × V)) : ℕ :=
  (iterE cuts).countP (fun e => decide (localitydict.get? e.1 = localitydict.get? e.2))

/-- `allowed_pieces` (updaters/locality_split_scores.py:152-175).  Populations are numbers; dividing by zero raises. -/
def allowedPieces (nodes : Finset V) (col : V → String) (pop : V → ℚ) (localities : List String) (numDistricts : ℕ) :
    Py (Dict String ℤ) :=
  localities.foldlM (fun d loc =>
    if numDistricts = 0 ∨ nodes.sum pop = 0 then .error .zeroDivision
    else .ok (d.set loc ⌈(nodes.filter (fun v => col v = loc)).sum pop / (nodes.sum pop / numDistricts)⌉)) Dict.empty

/-- A score.  The three entropies are kept as terms: they are functions of `locality_splits` and of the partition only
(Model/Entropy says which, and when they raise). -/
inductive Score (P : Type)
  | count (n : ℕ)
  | entropy (name : String) (splits : Dict P (Dict String ℕ))
  deriving DecidableEq

/-- The state of a `LocalitySplits` object and of the partitions it has scored: `scores` and the cached values of the
partitions are references into `store`, as python dictionaries are shared, not copied
(updaters/locality_split_scores.py:109-133; partition/partition.py:197-210).  Simplified: `locality_splits` and its inverse
are recomputed by every call and not kept. -/
structure LocWorld (V P : Type) where
  localitydict : Option (Dict V String)
  allowed : Dict String ℤ
  scores : ℕ
  store : ℕ → Dict String (Option (Score P))
  cache : Dict ℕ ℕ

/-- `LocalitySplits(name, col_id, pop_col, scores_to_compute)` (updaters/locality_split_scores.py:82-133), allocated at
reference `r`. -/
def LocWorld.init (toCompute : List String) (r : ℕ) : LocWorld V P :=
  ⟨none, Dict.empty, r, fun _ => toCompute.foldl (fun d s => d.set s none) Dict.empty, Dict.empty⟩

/-- What one score function returns (updaters/locality_split_scores.py:177-197); `none`: the name is not a score. -/
def scoreOf (ord : SetOrder P) (G : Graph V) (col : V → String) (localitydict : Dict V String) (a : Assignment V P)
    (splits : Dict P (Dict String ℕ)) (cuts : Py (Finset (V × V))) (s : String) : Py (Option (Score P)) :=
  if s = "num_parts" then .ok (some (.count (numParts splits)))
  else if s = "num_pieces" then do let n ← numPieces ord G col a; return some (.count n)
  else if s = "naked_boundary" then do let c ← cuts; return some (.count (nakedBoundary localitydict c))
  else if s = "num_split_localities" then .ok (some (.count (numSplitLocalities (localitySplitsInv splits))))
  else if s = "shannon_entropy" ∨ s = "power_entropy" ∨ s = "symmetric_entropy" then .ok (some (.entropy s splits))
  else .ok none

/-- The loop `for s in self.scores` (updaters/locality_split_scores.py:177-197): writes into the shared dictionary. -/
def scoreLoop (score : String → Py (Option (Score P))) : List String → M (Dict String (Option (Score P))) Unit
  | [] => M.pure ()
  | s :: l => fun d => match score s with
    | .error e => (.error e, d)
    | .ok none => scoreLoop score l d
    | .ok (some x) => scoreLoop score l (d.set s (some x))

/-- `dict(partition.graph.nodes(data=self.col_id))` (updaters/locality_split_scores.py:138). -/
def localityDict (nodes : Finset V) (col : V → L) : Dict V L := ⟨(iter nodes).map (fun v => (v, col v))⟩

/-- `LocalitySplits.__call__` (updaters/locality_split_scores.py:135-199): returns the reference of `self.scores`. -/
def LocWorld.call (ord : SetOrder P) (G : Graph V) (col : V → String) (pop : V → ℚ) (a : Assignment V P)
    (cuts : Py (Finset (V × V))) : M (LocWorld V P) ℕ := fun w =>
  let ld := w.localitydict.getD (localityDict G.nodes col)
  let w := { w with localitydict := some ld }
  match localitySplits ld a.parts with
  | .error e => (.error e, w)
  | .ok splits =>
    match (if w.allowed.entries = [] then allowedPieces G.nodes col pop ld.values.dedup a.parts.keys.length else .ok w.allowed) with
    | .error e => (.error e, w)
    | .ok allowed =>
      let w := { w with allowed := allowed }
      let d := w.store w.scores
      match scoreLoop (scoreOf ord G col ld a splits cuts) d.keys d with
      | (.error e, d') => (.error e, { w with store := fun r => if r = w.scores then d' else w.store r })
      | (.ok (), d') => (.ok w.scores, { w with store := fun r => if r = w.scores then d' else w.store r })

/-- `partition[name]` for this updater (partition/partition.py:197-210): computed once per partition, then the cached
reference is returned. -/
def LocWorld.getitem (ord : SetOrder P) (G : Graph V) (col : V → String) (pop : V → ℚ) (a : Assignment V P)
    (cuts : Py (Finset (V × V))) (p : ℕ) : M (LocWorld V P) ℕ := fun w =>
  match w.cache.get? p with
  | some r => (.ok r, w)
  | none => match w.call ord G col pop a cuts with
    | (.error e, w') => (.error e, w')
    | (.ok r, w') => (.ok r, { w' with cache := w'.cache.set p r })

end GC

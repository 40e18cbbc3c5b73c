import Verif.Model.Heap

/-!
# Diversity statistics

Model of `gerrychain/meta/diversity.py`.
-/

set_option linter.unusedSectionVars false
set_option autoImplicit false

namespace GC

variable {V P X : Type} [LinearOrder V] [DecidableEq P]

/-- `DiversityStats` (meta/diversity.py:10-29) -/
structure DiversityStats where
  uniquePlans : ℕ
  uniqueDistricts : ℕ
  stepsTaken : ℕ
deriving DecidableEq

/-- The local variables of `collect_diversity_stats` (meta/diversity.py:58-63). -/
structure DiversityState (V : Type) where
  seenPlans : Dict (List (V × V)) ℕ
  seenDistricts : Dict (List V) ℕ
  uniquePlans : ℕ
  uniqueDistricts : ℕ
  stepsTaken : ℕ

/-- meta/diversity.py:58-63 -/
def DiversityState.start : DiversityState V := ⟨.empty, .empty, 0, 0, 0⟩

/-- `tuple(sorted(list(nodes)))` (meta/diversity.py:69); the model's `iter` lists a set in increasing order. -/
def hashableNodes (nodes : Finset V) : List V := iter nodes

/-- `tuple(sorted(list(cut_edges)))` (meta/diversity.py:75); tuples are compared lexicographically, as `iterE` does. -/
def hashableCutEdges (cuts : Finset (V × V)) : List (V × V) := iterE cuts

/-- body of the loop over the districts (meta/diversity.py:68-72) -/
def DiversityState.seeDistrict (st : DiversityState V) (nodes : Finset V) : DiversityState V :=
  if (st.seenDistricts.get? (hashableNodes nodes)).isSome then st
  else { st with uniqueDistricts := st.uniqueDistricts + 1, seenDistricts := st.seenDistricts.set (hashableNodes nodes) 1 }

/-- the test and update for the plan (meta/diversity.py:74-78) -/
def DiversityState.seePlan (st : DiversityState V) (cuts : Finset (V × V)) : DiversityState V :=
  if (st.seenPlans.get? (hashableCutEdges cuts)).isSome then st
  else { st with uniquePlans := st.uniquePlans + 1, seenPlans := st.seenPlans.set (hashableCutEdges cuts) 1 }

/-- What the loop reads of a partition: its object, its districts and the result of `partition["cut_edges"]`. -/
structure Seen (V P X : Type) where
  obj : X
  parts : Dict P (Finset V)
  cutEdges : Py (Finset (V × V))

/-- One pass of the loop (meta/diversity.py:65-86): new state and yielded statistics. -/
def DiversityState.pass (st : DiversityState V) (x : Seen V P X) : Py (DiversityState V × DiversityStats) := do
  let st := { st with stepsTaken := st.stepsTaken + 1 }
  let st := x.parts.entries.foldl (fun st e => st.seeDistrict e.2) st
  let cuts ← x.cutEdges
  let st := st.seePlan cuts
  return (st, ⟨st.uniquePlans, st.uniqueDistricts, st.stepsTaken⟩)

/-- `collect_diversity_stats(chain)` (meta/diversity.py:32-86).  The chain yields `items` and then ends normally or raises `fin`.  Result:
what is yielded, and the exception that ends the generator, if any. -/
def collectDiversity (fin : Option PyErr) : DiversityState V → List (Seen V P X) → List (X × DiversityStats) × Option PyErr
  | _, [] => ([], fin)
  | st, x :: rest =>
    match st.pass x with
    | .error e => ([], some e)
    | .ok (st', stats) => ((x.obj, stats) :: (collectDiversity fin st' rest).1, (collectDiversity fin st' rest).2)

end GC

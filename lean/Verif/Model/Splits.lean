import Verif.Model.HeapChain
import Verif.Model.Contiguity

/-!
# Split counties, regions and localities

Model of `refuse_new_splits`, `tally_region_splits` and `LocalitySplits`.
-/

set_option linter.unusedSectionVars false
set_option autoImplicit false

namespace GC

variable {V P X : Type} [LinearOrder V] [DecidableEq P]

/-- The loop of `_refuse_new_splits` (constraints/validity.py:166-171) over the infos of the counties. -/
def noNewSplits (d : Dict String (CountyInfo V P)) : Bool := d.values.all (fun i => decide (i.split ≠ .newSplit))

/-- `refuse_new_splits(field)` as a constraint of a chain (constraints/validity.py:154-173).  `limit` is the recursion limit
of the lookup.  Simplified: the updater `county_splits(name, field)` is registered under a key that names `field`. -/
def refuseNewSplits (limit : ℕ) (field : String) : Constraint (World V P X) ℕ where
  call r s := ((match (getitem s.1.frame limit (.countySplits field) r s.1.caches).1 with
    | .ok (.counties d) => .ok (.bool (noNewSplits d))
    | .ok _ => .error .attributeError
    | .error e => .error e), (s.1.step (.lookup r (.countySplits field) limit), s.2))
  name := some "_refuse_new_splits"

/-- The body of the loop of `total_reg_splits` (updaters/county_splits.py:152-160): `split[name] += 1` for both ends. -/
def regSplitStep (region : V → String) (m : Dict V P) (split : Dict String ℕ) (e : V × V) : Py (Dict String ℕ) := do
  let a ← m.get e.1
  let b ← m.get e.2
  if a ≠ b ∧ region e.1 = region e.2 then
    let x ← split.get (region e.1)
    let split := split.set (region e.1) (x + 1)
    let y ← split.get (region e.2)
    return split.set (region e.2) (y + 1)
  else return split

/-- `total_reg_splits(partition, reg_attr)` (updaters/county_splits.py:144-161), given the cut edges. -/
def totalRegSplits (nodes : Finset V) (region : V → String) (m : Dict V P) (cuts : Finset (V × V)) : Py ℕ := do
  let names := ((iter nodes).map region).dedup
  let split : Dict String ℕ := ⟨names.map (fun n => (n, 0))⟩
  let split ← (iterE cuts).foldlM (regSplitStep region m) split
  return split.values.countP (fun x => decide (0 < x))

/-- `tally_region_splits(attrs)` on the partition `p` (updaters/county_splits.py:118-141): the keys of the result are the
attributes.  Simplified: the caches after the lookup of `cut_edges` are not returned. -/
def tallyRegionSplits (H : Heap V P) (limit : ℕ) (attrs : List String) (p : ℕ) : Py (Dict String ℕ) := do
  match H.frame.view p with
  | none => .error .attributeError
  | some v =>
    if Key.cutEdges ∉ H.frame.updaters then .error .valueError
    else
      attrs.foldlM (fun d attr => do
        let x ← (getitem H.frame limit .cutEdges p H.caches).1
        let cuts ← x.asEdgeSet
        let n ← totalRegSplits H.frame.data.graph.nodes (H.frame.data.region attr) v.assignment.mapping cuts
        return d.set attr n) Dict.empty

end GC

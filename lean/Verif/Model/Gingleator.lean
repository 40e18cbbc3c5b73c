import Verif.Model.Constraints

/-!
# Gingleator scores

Model of `gerrychain/optimization/gingleator.py`.  The score functions get `shares`, the values of
`part[minority_perc_col]`.  Exact arithmetic instead of floating point numbers.
-/

set_option linter.unusedSectionVars false
set_option autoImplicit false

namespace GC

variable {P : Type} [DecidableEq P]

/-- The percentage updater made by `Gingleator.__init__` (optimization/gingleator.py:80-86): `parts` is `part.parts.keys()`. -/
def minorityShares (parts : List P) (minority total : Dict P ℚ) : Py (Dict P ℚ) :=
  parts.foldlM (fun d k => do
    let a ← minority.get k
    let b ← total.get k
    if b = 0 then .error .zeroDivision else pure (d.set k (a / b))) Dict.empty

/-- `sum(list(map(lambda v: v >= threshold, dist_percs)))`, `num_opportunity_dists` (optimization/gingleator.py:100-120; also 143,
170, 199) -/
def numOpportunity (shares : List ℚ) (threshold : ℚ) : ℕ := (shares.map (fun v => if threshold ≤ v then 1 else 0)).sum

/-- `reward_partial_dist` (optimization/gingleator.py:122-145) -/
def rewardPartial (shares : List ℚ) (threshold : ℚ) : Py ℚ := do
  let next ← pyMax (shares.filter (fun i => i < threshold))
  pure (numOpportunity shares threshold + next)

/-- `reward_next_highest_close` (optimization/gingleator.py:147-176) -/
def rewardNextHighest (shares : List ℚ) (threshold : ℚ) : Py ℚ := do
  let next ← pyMax (shares.filter (fun i => i < threshold))
  if next < threshold - 1 / 10 then pure (numOpportunity shares threshold)
  else pure (numOpportunity shares threshold + (next - threshold + 1 / 10) * 10)

/-- `penalize_maximum_over` (optimization/gingleator.py:178-204) -/
def penalizeMaximum (shares : List ℚ) (threshold : ℚ) : Py ℚ :=
  if numOpportunity shares threshold = 0 then .ok 0
  else do
    let m ← pyMax shares
    if 1 - threshold = 0 then .error .zeroDivision
    else pure (numOpportunity shares threshold + (1 - m) / (1 - threshold))

/-- `penalize_avg_over` (optimization/gingleator.py:206-233).  The average is a numpy number, so a division by zero is no exception:
the result is NaN or infinite, here `none`. -/
def penalizeAverage (shares : List ℚ) (threshold : ℚ) : Option ℚ :=
  let opport := shares.filter (fun v => threshold ≤ v)
  if opport = [] then some 0
  else if 1 - threshold = 0 then none
  else some (opport.length + (1 - opport.sum / opport.length) / (1 - threshold))

end GC

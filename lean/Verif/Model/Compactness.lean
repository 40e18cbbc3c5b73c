import Verif.Model.Heap
import Verif.Model.Chain
import Mathlib.Analysis.SpecialFunctions.Trigonometric.Basic

/-!
# Polsby-Popper scores, their norms, and the constraints of the library that configure themselves

Model of `gerrychain/metrics/compactness.py`, `gerrychain/constraints/compactness.py` and of the module-level constraint objects
(`constraints/compactness.py:66-70`, `constraints/contiguity.py:223`).  Numbers are exact; NaN is `none`.  Python floats are meant (with
numpy floats a division by zero gives infinity or NaN and a warning instead of `ZeroDivisionError`).
-/

set_option linter.unusedSectionVars false
set_option autoImplicit false

namespace GC

variable {V P : Type} [LinearOrder V] [DecidableEq P]

/-- `compute_polsby_popper` (metrics/compactness.py:5-20): `4 * math.pi * area / perimeter**2`, NaN on `ZeroDivisionError`. -/
noncomputable def computePolsbyPopper (area : Num) (perimeter : ℚ) : Option ℝ :=
  if perimeter = 0 then none
  else match area with
    | some a => some (4 * Real.pi * (a : ℝ) / (perimeter : ℝ) ^ 2)
    | none => none

/-- The comprehension of `polsby_popper` (metrics/compactness.py:35-40) over the given parts: both lookups are repeated for every part, and a part
missing from one of the two dictionaries raises `KeyError`. -/
noncomputable def polsbyPopperParts (F : Frame V P) (limit : ℕ) (p : ℕ) : List P → M (Caches V P) (List (P × Option ℝ))
  | [] => pure []
  | part :: rest => do
    let x ← getitem F limit (.tally ["area"]) p
    let areas ← M.lift x.asNums
    let area ← M.lift (areas.get part)
    let y ← getitem F limit .perimeter p
    let perimeters ← M.lift y.asRats
    let perimeter ← M.lift (perimeters.get part)
    let l ← polsbyPopperParts F limit p rest
    pure ((part, computePolsbyPopper area perimeter) :: l)

/-- `polsby_popper` (metrics/compactness.py:25-40).  The keys of `partition.parts` are distinct, so the comprehension makes one entry for each.
`partition["area"]` is `Tally("area", alias="area")` and `partition["perimeter"]` is `perimeter`, as in `GeographicPartition.default_updaters`
(partition/geographic.py:20-28) and in `Grid.default_updaters` (grid.py:46-56). -/
noncomputable def polsbyPopper (F : Frame V P) (limit : ℕ) (p : ℕ) : M (Caches V P) (Dict P (Option ℝ)) :=
  match F.view p with
  | none => M.raise .attributeError
  | some v => do
    let l ← polsbyPopperParts F limit p v.assignment.parts.keys
    pure ⟨l⟩

/-- `a + b` on floats that may be NaN -/
noncomputable def nanAdd : Option ℝ → Option ℝ → Option ℝ
  | some a, some b => some (a + b)
  | _, _ => none

/-- `a / b` on floats that may be NaN; `ZeroDivisionError` when `b` is zero, even if `a` is NaN -/
noncomputable def nanDiv (a b : Option ℝ) : Py (Option ℝ) :=
  if b = some 0 then .error .zeroDivision
  else match a, b with
    | some a, some b => .ok (some (a / b))
    | _, _ => .ok none

/-- `sum(1 / value for value in values)`: from the left, starting with 0 -/
noncomputable def sumReciprocals (values : List (Option ℝ)) : Py (Option ℝ) :=
  values.foldlM (fun acc value => do
    let r ← nanDiv (some 1) value
    return nanAdd acc r) (some 0)

/-- `L1_reciprocal_polsby_popper` (constraints/compactness.py:8-19); `scores` is `partition["polsby_popper"]`. -/
noncomputable def l1ReciprocalPP (scores : Dict P (Option ℝ)) : Py (Option ℝ) := sumReciprocals scores.values

/-- `L1_polsby_popper` (constraints/compactness.py:22-33) -/
noncomputable def l1PP (scores : Dict P (Option ℝ)) : Option ℝ := scores.values.foldl nanAdd (some 0)

/-- `L2_polsby_popper` (constraints/compactness.py:36-47): `math.sqrt` of NaN is NaN. -/
noncomputable def l2PP (scores : Dict P (Option ℝ)) : Option ℝ :=
  ((scores.values.map (fun x => x.map (fun r => r ^ 2))).foldl nanAdd (some 0)).map Real.sqrt

/-- `L_minus_1_polsby_popper` (constraints/compactness.py:50-63); `parts` is `partition.parts`. -/
noncomputable def lMinus1PP (parts : Dict P (Finset V)) (scores : Dict P (Option ℝ)) : Py (Option ℝ) := do
  let total ← sumReciprocals scores.values
  nanDiv (some parts.keys.length) total

/-! ### constraint objects that remember a bound -/

section
variable {K X R : Type} [Field K] [LinearOrder K]

/-- `a <= b` on floats that may be NaN -/
def nanLe : Option K → Option K → Bool
  | some a, some b => decide (a ≤ b)
  | _, _ => false

/-- `not self.bound`: `None` or zero; NaN is true -/
def unset : Option (Option K) → Bool
  | none => true
  | some none => false
  | some (some b) => b = 0

/-- A `SelfConfiguringUpperBound` (constraints/bounds.py:98-129) as a constraint of a chain: its attribute `bound` is part of the world, next to
everything else (`X`); `f` is `self.func`, called twice when the bound is unset. -/
def selfUpperCon (f : R → M X (Option K)) (name : String) : Constraint (X × Option (Option K)) R where
  call r := fun s =>
    if unset s.2 then
      match f r s.1 with
      | (.error e, x) => (.error e, (x, s.2))
      | (.ok b, x) => match f r x with
        | (.error e, x') => (.error e, (x', some b))
        | (.ok v, x') => (.ok (.bool (nanLe v b)), (x', some b))
    else
      match f r s.1 with
      | (.error e, x) => (.error e, (x, s.2))
      | (.ok v, x) => (.ok (.bool (nanLe v (s.2.getD none))), (x, s.2))
  name := some name

/-- A `SelfConfiguringLowerBound` (constraints/bounds.py:131-166) as a constraint of a chain, likewise. -/
def selfLowerCon (f : R → M X (Option K)) (epsilon : K) (name : String) : Constraint (X × Option (Option K)) R where
  call r := fun s =>
    if unset s.2 then
      match f r s.1 with
      | (.error e, x) => (.error e, (x, s.2))
      | (.ok b, x) => match f r x with
        | (.error e, x') => (.error e, (x', some (b.map (· - epsilon))))
        | (.ok v, x') => (.ok (.bool (nanLe (b.map (· - epsilon)) v)), (x', some (b.map (· - epsilon))))
    else
      match f r s.1 with
      | (.error e, x) => (.error e, (x, s.2))
      | (.ok v, x) => (.ok (.bool (nanLe (s.2.getD none) v)), (x, s.2))
  name := some name

/-- A computation on the rest of the world, which leaves the bound of the constraint object alone. -/
def besides {α B : Type} (m : M X α) : M (X × B) α := fun s => ((m s.1).1, ((m s.1).2, s.2))

/-- A chain whose proposal, acceptance function and partitions know nothing of the bound (chain.py:51-101). -/
def ChainCfg.beside {B : Type} (c : ChainCfg X R) : ChainCfg (X × B) R where
  proposal r := besides (c.proposal r)
  accept r := besides (c.accept r)
  erase r := fun s => (c.erase r s.1, s.2)
  totalSteps := c.totalSteps
  initial := c.initial

/-- The default 0.05 of `SelfConfiguringLowerBound` (constraints/bounds.py:143), taken exactly. -/
def defaultEpsilon : K := 1 / 20

end

/-- `no_worse_L_minus_1_polsby_popper` (constraints/compactness.py:66) and its like: one object for the whole process, made at import with
no bound.  `f` computes `L_minus_1_polsby_popper` of a partition. -/
noncomputable def noWorseLMinus1 {X R : Type} (f : R → M X (Option ℝ)) : Constraint (X × Option (Option ℝ)) R :=
  selfLowerCon f defaultEpsilon "SelfConfiguringLowerBound(L_minus_1_polsby_popper)"

/-- `no_worse_L1_reciprocal_polsby_popper` (constraints/compactness.py:68-70) -/
noncomputable def noWorseL1Reciprocal {X R : Type} (f : R → M X (Option ℝ)) : Constraint (X × Option (Option ℝ)) R :=
  selfUpperCon f "SelfConfiguringUpperBound(L1_reciprocal_polsby_popper)"

end GC

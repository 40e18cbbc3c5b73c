import Verif.Model.Heap
import Mathlib.Data.Rat.Floor

/-!
# Bounds, population constraints, acceptance

Model of `gerrychain/constraints/bounds.py`, the population functions of `gerrychain/constraints/validity.py` and
`gerrychain/accept.py`.  Numbers are rationals without NaN.
-/

set_option linter.unusedSectionVars false
set_option autoImplicit false

namespace GC

variable {V P : Type} [LinearOrder V] [DecidableEq P]

/-- `min(values)`; `ValueError` when empty. -/
def pyMin : List ℚ → Py ℚ
  | [] => .error .valueError
  | x :: xs => .ok (xs.foldl min x)

/-- `max(values)`; `ValueError` when empty. -/
def pyMax : List ℚ → Py ℚ
  | [] => .error .valueError
  | x :: xs => .ok (xs.foldl max x)

/-- What the function given to `Bounds` returns: a container (list, `dict.values()`, ...), or a one-shot iterator
(generator, `map`, ...), which is empty when it is read a second time. -/
inductive Iterable
  | container (values : List ℚ)
  | generator (values : List ℚ)

/-- the values seen by the first reader -/
def Iterable.first : Iterable → List ℚ
  | .container l => l
  | .generator l => l

/-- the values seen by the second reader -/
def Iterable.second : Iterable → List ℚ
  | .container l => l
  | .generator _ => []

/-- `Bounds.__call__` (constraints/bounds.py:25-28). -/
def boundsCall (lower upper : ℚ) (values : Iterable) : Py Bool := do
  let m ← pyMin values.first
  if lower ≤ m then
    let M ← pyMax values.second
    return decide (M ≤ upper)
  else return false

/-- `UpperBound.__call__` (constraints/bounds.py:57-58). -/
def upperBoundCall (bound value : ℚ) : Bool := decide (value ≤ bound)

/-- `LowerBound.__call__` (constraints/bounds.py:87-88). -/
def lowerBoundCall (bound value : ℚ) : Bool := decide (bound ≤ value)

/-- `not self.bound`: unset or zero. -/
def falsy : Option ℚ → Bool
  | none => true
  | some b => b = 0

/-- `SelfConfiguringUpperBound.__call__` (constraints/bounds.py:118-121): new bound and result; `value` is
`self.func(partition)`. -/
def selfUpperCall (bound : Option ℚ) (value : ℚ) : Option ℚ × Bool :=
  let b := if falsy bound then some value else bound
  (b, decide (value ≤ b.getD 0))

/-- `SelfConfiguringLowerBound.__call__` (constraints/bounds.py:153-156). -/
def selfLowerCall (epsilon : ℚ) (bound : Option ℚ) (value : ℚ) : Option ℚ × Bool :=
  let b := if falsy bound then some (value - epsilon) else bound
  (b, decide (b.getD 0 ≤ value))

/-- `WithinPercentRangeOfBounds.__call__` (constraints/bounds.py:198-204); `percent` is already divided by 100 (line 194). -/
def withinPercentCall (percent : ℚ) (bounds : Option ℚ × Option ℚ) (value : ℚ) : (Option ℚ × Option ℚ) × Bool :=
  if falsy bounds.1 || falsy bounds.2 then ((some (value * (1 - percent)), some (value * (1 + percent))), true)
  else (bounds, decide (bounds.1.getD 0 ≤ value ∧ value ≤ bounds.2.getD 0))

/-- Calling a stateful constraint on partitions with the given values one after the other; the list of results. -/
def callAll {σ : Type} (call : σ → ℚ → σ × Bool) : σ → List ℚ → List Bool
  | _, [] => []
  | s, x :: xs => (call s x).2 :: callAll call (call s x).1 xs

/-- `total / number_of_districts` (constraints/validity.py:88-90, 113-115); `ZeroDivisionError` without districts. -/
def idealPopulation (pops : Dict P ℚ) : Py ℚ :=
  if pops.keys.length = 0 then .error .zeroDivision else .ok (pops.values.sum / pops.keys.length)

/-- `within_percent_of_ideal_population` (constraints/validity.py:63-93): the bounds computed from the initial partition. -/
def withinPercentBounds (initial : Dict P ℚ) (percent : ℚ) : Py (ℚ × ℚ) := do
  let ideal ← idealPopulation initial
  return ((1 - percent) * ideal, (1 + percent) * ideal)

/-- The resulting constraint applied to a partition (constraints/validity.py:85-86 and 93). -/
def withinPercentOfIdeal (initial : Dict P ℚ) (percent : ℚ) (pops : Dict P ℚ) : Py Bool := do
  let b ← withinPercentBounds initial percent
  boundsCall b.1 b.2 (.container pops.values)

/-- `deviation_from_ideal` (constraints/validity.py:96-122); division by a zero ideal raises. -/
def deviationFromIdeal (pops : Dict P ℚ) : Py (Dict P ℚ) := do
  let ideal ← idealPopulation pops
  let es ← pops.entries.mapM (fun e => if ideal = 0 then (.error .zeroDivision : Py (P × ℚ)) else .ok (e.1, (e.2 - ideal) / ideal))
  return ⟨es⟩

/-- `districts_within_tolerance` (constraints/validity.py:125-151); `0.01` is taken exactly. -/
def districtsWithinTolerance (pops : Dict P ℚ) (percentage : ℚ) : Py Bool := do
  let percentage := if percentage ≥ 1 then percentage * (1 / 100) else percentage
  let M ← pyMax pops.values
  let m ← pyMin pops.values
  return decide (M - m ≤ percentage * m)

/-- `no_vanishing_districts` (constraints/validity.py:176-188). `None` when `p` is not an object. -/
def noVanishing (F : Frame V P) (p : ℕ) : Option Bool := do
  let v ← F.view p
  match F.truthyParent v with
  | none => return true
  | some _ => return v.assignment.parts.values.all (fun s => 0 < s.card)

/-- `cut_edge_accept` (accept.py:19-35); `draw` is `random.random()`. -/
def cutEdgeAccept (F : Frame V P) (limit : ℕ) (draw : ℚ) (p : ℕ) : M (Caches V P) Bool := do
  match F.view p with
  | none => M.raise .attributeError
  | some v => match v.parent with
    | none => pure (decide (draw < 1))
    | some q => do
      let x ← getitem F limit .cutEdges q
      let a ← M.lift x.asEdgeSet
      let y ← getitem F limit .cutEdges p
      let b ← M.lift y.asEdgeSet
      if b.card = 0 then M.raise .zeroDivision
      else pure (decide (draw < min 1 ((a.card : ℚ) / b.card)))

end GC

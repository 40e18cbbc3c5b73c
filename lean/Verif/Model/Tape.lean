import Verif.Model.Tree
import Mathlib.Algebra.BigOperators.Fin
import Mathlib.Algebra.BigOperators.Field
import Mathlib.Data.Fintype.BigOperators

/-!
# Random numbers with probabilities

For statements about probabilities the random number generator is run on a tape of numbers drawn independently and uniformly from `0, ..., N - 1`
where `N` is a multiple of everything that the program divides by: `random.choice(l)` takes the next number modulo `len(l)` and
`random.random()` divides the next number by `N`.  The probability of an event is the share of the `N ^ L` tapes of length `L` for which it happens.
(Python uses the Mersenne twister; its bits are not modelled.)
-/

set_option linter.unusedSectionVars false
set_option autoImplicit false

namespace GC

/-- the numbers that will be drawn -/
abbrev Tape := List ℕ

/-- the next number; an exhausted tape gives 0 (the theorems use long enough tapes) -/
def nextNumber : M Tape ℕ := fun t => (.ok (t.headD 0), t.tail)

/-- `random.choice` and `random.random` (used at proposals/tree_proposals.py:228, 233, 247, 264 and tree.py:371, 391, 417) on a tape -/
def uniRand (N : ℕ) : Rand Tape where
  choice := fun l => match l with
    | [] => M.raise .indexError
    | x :: l => do
      let i ← nextNumber
      pure ((x :: l)[i % (l.length + 1)]'(Nat.mod_lt _ (Nat.succ_pos _)))
  random := do
    let i ← nextNumber
    pure ((i % N : ℕ) / (N : ℚ))

/-- the average of a function over all tapes of length `L` -/
def avg (N L : ℕ) (φ : Tape → ℚ) : ℚ := (∑ t : Fin L → Fin N, φ (List.ofFn (fun i => (t i : ℕ)))) / (N : ℚ) ^ L

/-- the probability that a program ends with a result that has the property -/
def prob {α : Type} (N L : ℕ) (m : M Tape α) (E : Py α → Prop) [DecidablePred E] : ℚ := avg N L (fun t => if E (m t).1 then 1 else 0)

end GC

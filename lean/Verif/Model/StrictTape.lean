import Verif.Model.Tape

/-!
# Tapes that end

For programs without a bound on the number of random numbers they draw: drawing from an exhausted tape raises `outOfFuel`.  So the share of the tapes of
length `L` on which a program returns a certain result is the probability that it returns this result after at most `L` draws.
-/

set_option linter.unusedSectionVars false
set_option autoImplicit false

namespace GC

/-- the next number of the tape -/
def strictNext : M Tape ℕ := fun t => match t with
  | [] => (.error .outOfFuel, [])
  | i :: t => (.ok i, t)

/-- `random.choice` and `random.random` (used at tree.py:112, 119 and proposals/tree_proposals.py:228, 233, 247, 264) on a tape that ends -/
def strictRand (N : ℕ) : Rand Tape where
  choice := fun l => match l with
    | [] => M.raise .indexError
    | x :: l => do
      let i ← strictNext
      pure ((x :: l)[i % (l.length + 1)]'(Nat.mod_lt _ (Nat.succ_pos _)))
  random := do
    let i ← strictNext
    pure ((i % N : ℕ) / (N : ℚ))

end GC

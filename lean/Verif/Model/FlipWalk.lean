import Verif.Model.Flips
import Verif.Model.Chain
import Verif.Model.Tape
import Verif.Spec.Updaters

/-!
# Chains of flips with probabilities

The flip proposals and `cut_edge_accept` in a `MarkovChain` whose states are values instead of objects and whose world is the tape of random numbers.
Simplified: `partition["cut_edges"]` is the set of the cut edges of the plan; that the updater returns this set in every history of partition objects is
proved elsewhere (C04).
-/

set_option linter.unusedSectionVars false
set_option autoImplicit false

namespace GC

variable {V P : Type} [LinearOrder V] [LinearOrder P]

/-- A partition as the flip proposals and `cut_edge_accept` see it (partition/partition.py:28-65, 153-166): its assignment and that of its parent.  The
parent's parent is dropped, as `MarkovChain` does (chain.py:187-189). -/
structure PlanState (V P : Type) [LinearOrder V] [LinearOrder P] where
  plan : Assignment V P
  parent : Option (Assignment V P)

/-- `Partition.flip` (partition/partition.py:176-185) on values -/
def PlanState.flip (x : PlanState V P) (flips : Dict V P) : Py (PlanState V P) := do
  let b ← x.plan.flip flips
  return ⟨b, some x.plan⟩

/-- `slow_reversible_propose` (proposals/proposals.py:136-157) on values -/
def slowMove (N : ℕ) (G : Graph V) (x : PlanState V P) : M Tape (PlanState V P) := do
  let f ← slowFlip (uniRand N) x.plan (cutsOf G x.plan.mapping)
  M.lift (x.flip f)

/-- `slow_reversible_propose_bi` (proposals/proposals.py:98-130) on values -/
def biMove (N : ℕ) (G : Graph V) (x : PlanState V P) : M Tape (PlanState V P) := do
  let f ← slowFlipBi (uniRand N) G x.plan (cutsOf G x.plan.mapping)
  M.lift (x.flip f)

/-- `propose_random_flip` (proposals/proposals.py:79-95) on values.  Without cut edges it returns the partition itself, whose parent is then erased by
the chain (chain.py:187-189). -/
def randomMove (N : ℕ) (G : Graph V) (x : PlanState V P) : M Tape (PlanState V P) := do
  let f ← randomFlip (uniRand N) x.plan (cutsOf G x.plan.mapping)
  match f with
  | none => pure ⟨x.plan, none⟩
  | some f => M.lift (x.flip f)

/-- `cut_edge_accept` (accept.py:19-35) on values -/
def cutAccept (N : ℕ) (G : Graph V) (x : PlanState V P) : M Tape Bool := do
  let bound ← M.lift (match x.parent with
    | none => (.ok 1 : Py ℚ)
    | some a => if (cutsOf G x.plan.mapping).card = 0 then .error .zeroDivision
        else .ok (min 1 (((cutsOf G a.mapping).card : ℚ) / (cutsOf G x.plan.mapping).card)))
  let u ← (uniRand N).random
  pure (decide (u < bound))

/-- `always_accept` (accept.py:15-16) -/
def alwaysAccept (_ : PlanState V P) : M Tape Bool := pure true

/-- the arguments of `MarkovChain(proposal, constraints, accept, initial_state, total_steps)` (chain.py:51-101) -/
def flipChain (proposal : PlanState V P → M Tape (PlanState V P)) (accept : PlanState V P → M Tape Bool) (initial : PlanState V P) (totalSteps : ℤ) :
    ChainCfg Tape (PlanState V P) where
  proposal := proposal
  accept := accept
  erase := fun _ t => t
  totalSteps := totalSteps
  initial := initial

end GC

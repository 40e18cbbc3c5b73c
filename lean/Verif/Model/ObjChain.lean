import Verif.Model.FlipWalk
import Verif.Model.Contiguity
import Verif.Spec.Contiguity

/-!
# Acceptance functions and constraints on partition objects, and what a run of objects reports

The callables of a `MarkovChain` whose states are the partition objects of `Verif.Model.Heap`; their counterparts on values are in `Verif.Model.FlipWalk`.
-/

set_option linter.unusedSectionVars false
set_option autoImplicit false

namespace GC

variable {V P X : Type} [LinearOrder V] [LinearOrder P]

/-- `bound` of `cut_edge_accept` (accept.py:30-33): the parent's updater is looked up first -/
def acceptBoundObj (limit st : ℕ) : Option ℕ → M (World V P X) ℚ
  | none => pure 1
  | some q => do
    let x ← lookupKey .cutEdges limit q
    let a ← M.lift x.asEdgeSet
    let y ← lookupKey .cutEdges limit st
    let b ← M.lift y.asEdgeSet
    if b.card = 0 then M.raise .zeroDivision else pure (min 1 ((a.card : ℚ) / b.card))

/-- `cut_edge_accept` (accept.py:19-35) on partition objects -/
def cutAcceptObj (R : Rand X) (limit st : ℕ) : M (World V P X) Bool := do
  let v ← viewObj st
  let bound ← acceptBoundObj limit st v.parent
  let u ← M.onRest R.random
  pure (decide (u < bound))

/-- `always_accept` (accept.py:15-16) on partition objects -/
def alwaysAcceptObj (_ : ℕ) : M (World V P X) Bool := pure true

/-- A constraint of the user that reads the plan only (constraints/validity.py:7-60 calls it with the partition): on objects -/
def planCheckObj (f : Assignment V P → Py CVal) (name : Option String) : Constraint (World V P X) ℕ where
  call st := do
    let v ← viewObj st
    M.lift (f v.assignment)
  name := name

/-- the same constraint on values (constraints/validity.py:7-60) -/
def planCheck (f : Assignment V P → Py CVal) (name : Option String) : Constraint X (PlanState V P) where
  call x := M.lift (f x.plan)
  name := name

/-- `Validator` asks for the number of cut edges, as `UpperBound(lambda p: len(p["cut_edges"]), bound)` does (constraints/bounds.py:38-65), on objects -/
def cutCheckObj (limit : ℕ) (f : ℕ → Py CVal) (name : Option String) : Constraint (World V P X) ℕ where
  call st := do
    let x ← lookupKey .cutEdges limit st
    let a ← M.lift x.asEdgeSet
    M.lift (f a.card)
  name := name

/-- the same constraint on values (constraints/bounds.py:38-65) -/
def cutCheck (G : Graph V) (f : ℕ → Py CVal) (name : Option String) : Constraint X (PlanState V P) where
  call x := M.lift (f (cutsOf G x.plan.mapping).card)
  name := name

/-- `contiguous` (constraints/contiguity.py:169-181) as a constraint on objects; `ord` is the order in which sets of districts are read -/
def contigCheckObj (ord : SetOrder P) : Constraint (World V P X) ℕ where
  call st s := ((contiguous ord s.1.frame st).map CVal.bool, s)
  name := some "contiguous"

open Classical in
/-- the same question about a plan (constraints/contiguity.py:169-181): is every district contiguous?  `networkx.is_connected` raises for an empty district. -/
noncomputable def contigCheck (G : Graph V) : Constraint X (PlanState V P) where
  call x := M.lift (if NonemptyPlan x.plan then .ok (.bool (decide (ContiguousPlan G x.plan))) else .error .pointlessConcept)
  name := some "contiguous"

/-- `single_flip_contiguous` (constraints/contiguity.py:66-138) as a constraint on objects.  `draw st v` is the choice of `random.choice` (line 122) for the object `st` and its
changed node `v`: these choices are not taken from the tape of the proposals.  The search has `fuel` steps; see `Rule.FitsFlips`. -/
def singleFlipObj (fuel : ℕ) (ord : SetOrder P) (adj : Dict V (List V)) (draw : ℕ → V → ℕ) : Constraint (World V P X) ℕ where
  call st s := (((singleFlipContiguous fuel ord adj (draw st) s.1.frame st).getD (.error .recursionError)).map CVal.bool, s)
  name := some "single_flip_contiguous"

open Classical in
/-- the same question about a plan (constraints/contiguity.py:66-138): is every district contiguous?  An empty district is not. -/
noncomputable def singleFlipCheck (G : Graph V) : Constraint X (PlanState V P) where
  call x := pure (.bool (decide (ContiguousPlan G x.plan)))
  name := some "single_flip_contiguous"

/-- the values of a tally: those under its keys, as `d.values()` gives them (constraints/validity.py:85-86).  Numbers only: NaN is read as 0, see `Rule.Fits`. -/
def tallyValues (d : Dict P Num) : List ℚ := d.keys.map (fun part => ((d.get? part).getD 0).unbotD 0)

/-- `Bounds(population, bounds=(lo, hi))` as `within_percent_of_ideal_population` makes it (constraints/validity.py:63-93, constraints/bounds.py:25-28), on objects -/
def tallyCheckObj (limit : ℕ) (fields : List String) (lo hi : ℚ) (name : Option String) : Constraint (World V P X) ℕ where
  call st := do
    let x ← lookupKey (.tally fields) limit st
    let d ← M.lift x.asNums
    M.lift ((boundsCall lo hi (.container (tallyValues d))).map CVal.bool)
  name := name

/-- the populations of the districts of a plan (updaters/tally.py:130-170) -/
def planTallies (D : GraphData V) (fields : List String) (a : Assignment V P) : List ℚ :=
  a.parts.entries.map (fun e => ∑ n ∈ e.2, (tallyFromNode D fields n).unbotD 0)

/-- the same bounds on the populations of a plan (constraints/validity.py:63-93) -/
def tallyCheck (D : GraphData V) (fields : List String) (lo hi : ℚ) (name : Option String) : Constraint X (PlanState V P) where
  call x := M.lift ((boundsCall lo hi (.container (planTallies D fields x.plan))).map CVal.bool)
  name := name

/-- The constraints that are compared: a function of the plan written by the user, a function of the number of cut edges, `contiguous`,
`single_flip_contiguous`, and bounds on a tally
(constraints/validity.py:7-93, constraints/bounds.py:10-90, constraints/contiguity.py:66-181) -/
inductive Rule (V P : Type) [LinearOrder P]
  | plan (f : Assignment V P → Py CVal) (name : Option String)
  | cuts (f : ℕ → Py CVal) (name : Option String)
  | contiguous (ord : SetOrder P)
  | singleFlip (fuel : ℕ) (ord : SetOrder P) (adj : Dict V (List V)) (draw : ℕ → V → ℕ)
  | tally (fields : List String) (lo hi : ℚ) (name : Option String)

/-- the constraint on objects (constraints/validity.py:7-60) -/
def Rule.obj (limit : ℕ) : Rule V P → Constraint (World V P X) ℕ
  | .plan f name => planCheckObj f name
  | .cuts f name => cutCheckObj limit f name
  | .contiguous ord => contigCheckObj ord
  | .singleFlip fuel ord adj draw => singleFlipObj fuel ord adj draw
  | .tally fields lo hi name => tallyCheckObj limit fields lo hi name

/-- the constraint on plans (constraints/validity.py:7-60) -/
noncomputable def Rule.val (D : GraphData V) : Rule V P → Constraint X (PlanState V P)
  | .plan f name => planCheck f name
  | .cuts f name => cutCheck D.graph f name
  | .contiguous _ => contigCheck D.graph
  | .singleFlip _ _ _ _ => singleFlipCheck D.graph
  | .tally fields lo hi name => tallyCheck D fields lo hi name

/-- The constraint reads the plan or the cut edges only (constraints/bounds.py:38-65). -/
def Rule.Simple : Rule V P → Prop
  | .plan _ _ | .cuts _ _ => True
  | _ => False

/-- A tally that is read is registered and has no NaN in its columns (constraints/validity.py:85-86).  `single_flip_contiguous` is for single flips only. -/
def Rule.Fits (D : GraphData V) (ups : List Key) : Rule V P → Prop
  | .singleFlip _ _ _ _ => False
  | .tally fields _ _ _ => Key.tally fields ∈ ups ∧ ∀ n, tallyFromNode D fields n ≠ ⊥
  | _ => True

/-- the arguments of `MarkovChain` (chain.py:51-101) for partition objects -/
def objChain (proposal : ℕ → M (World V P X) ℕ) (accept : ℕ → M (World V P X) Bool) (initial : ℕ) (totalSteps : ℤ) : ChainCfg (World V P X) ℕ where
  proposal := proposal
  accept := accept
  erase := World.erase
  totalSteps := totalSteps
  initial := initial

/-- the proposals of single flips (proposals/proposals.py:79-157) -/
inductive FlipKind
  | random
  | slow
  | slowBi

/-- the proposal on objects (proposals/proposals.py:79-157) -/
def FlipKind.obj (R : Rand X) (limit : ℕ) : FlipKind → ℕ → M (World V P X) ℕ
  | .random => proposeRandomFlip R limit
  | .slow => slowReversiblePropose R limit
  | .slowBi => slowReversibleProposeBi R limit

/-- the acceptance functions that are compared (accept.py:15-35) -/
inductive AcceptKind
  | always
  | cutEdge

/-- the acceptance function on objects (accept.py:15-35) -/
def AcceptKind.obj (R : Rand X) (limit : ℕ) : AcceptKind → ℕ → M (World V P X) Bool
  | .always => alwaysAcceptObj
  | .cutEdge => cutAcceptObj R limit

/-- the move on plans (proposals/proposals.py:79-157) -/
def FlipKind.val (N : ℕ) (G : Graph V) : FlipKind → PlanState V P → M Tape (PlanState V P)
  | .random => randomMove N G
  | .slow => slowMove N G
  | .slowBi => biMove N G

/-- the acceptance function on plans (accept.py:15-35) -/
def AcceptKind.val (N : ℕ) (G : Graph V) : AcceptKind → PlanState V P → M Tape Bool
  | .always => alwaysAccept
  | .cutEdge => cutAccept N G

/-- the plan of an object (partition/partition.py:28-65) -/
def World.plan (s : World V P X) (r : ℕ) : Option (Assignment V P) := (s.1.frame.view r).map (·.assignment)

/-- the flips that made an object (partition/partition.py:67-77, 153-166) -/
def World.flipsOf (s : World V P X) (r : ℕ) : Option (Dict V P) := (s.1.frame.view r).bind (·.flips)

/-- the plan of the parent of an object (partition/partition.py:153-166) -/
def World.parentPlan (s : World V P X) (r : ℕ) : Option (Assignment V P) := (World.parent s r).bind (World.plan s)

/-- What the caller of `list(chain)` (chain.py:152-196) sees of a run of objects: the exception, or the plans of the objects in the list, looked at after the run;
and the rest of the world.  `none`: not finished. -/
def seenObj {C : Type} : Option (Py (List ℕ) × C × World V P X) → Option (Py (List (Option (Assignment V P))) × X)
  | none => none
  | some (.error e, _, s) => some (.error e, s.2)
  | some (.ok l, _, s) => some (.ok (l.map s.plan), s.2)

/-- the same for a run of values (chain.py:152-196) -/
def seen {C : Type} : Option (Py (List (PlanState V P)) × C × X) → Option (Py (List (Option (Assignment V P))) × X)
  | none => none
  | some (.error e, _, x) => some (.error e, x)
  | some (.ok l, _, x) => some (.ok (l.map (fun y => some y.plan)), x)

/-- `list(MarkovChain(...))` (chain.py:51-101, 152-196) on objects, with the constructor: what the caller sees -/
def runObj (c : ChainCfg (World V P X) ℕ) (cs : List (Constraint (World V P X) ℕ)) (fuel body : ℕ) (s : World V P X) :
    Option (Py (List (Option (Assignment V P))) × X) :=
  match Chain.init c cs s with
  | (.error e, s1) => some (.error e, s1.2)
  | (.ok ch, s1) => seenObj (ch.list c fuel body s1)

/-- `list(MarkovChain(...))` (chain.py:51-101, 152-196) on values -/
def runPlans (c : ChainCfg X (PlanState V P)) (cs : List (Constraint X (PlanState V P))) (fuel body : ℕ) (x : X) :
    Option (Py (List (Option (Assignment V P))) × X) :=
  match Chain.init c cs x with
  | (.error e, x1) => some (.error e, x1)
  | (.ok ch, x1) => seen (ch.list c fuel body x1)

end GC

import Verif.Model.Optimizer

/-!
# The clock of simulated annealing

`simulated_annealing` asks the updater `step` of a proposed partition for the time and gives it to the temperature schedule.  The
updater is registered by the constructor of the optimizer and counts along the parents of a partition, whose parent the chain
erases.  Everything else in the world (assignments, the other updaters, the random generator) is `rest`.
-/

set_option linter.unusedSectionVars false
set_option autoImplicit false

namespace GC

variable {X : Type}

/-- Partition objects `0, …, count - 1` with the attributes that matter for the clock: `parent` (partition/partition.py:28-38) and the
value cached for the updater `step` (partition/partition.py:197-210).  `readings` is not in the code: it records the arguments with
which the temperature schedule has been called. -/
structure Clocks (X : Type) where
  parent : ℕ → Option ℕ
  clock : ℕ → Option ℤ
  count : ℕ
  rest : X
  readings : List ℤ

/-- storing a computed value in the cache of a partition (partition/partition.py:208-210) -/
def Clocks.store (s : Clocks X) (r : ℕ) (k : ℤ) : Clocks X := { s with clock := Function.update s.clock r (some k) }

/-- `part[self._step_indexer]`: `Partition.__getitem__` (partition/partition.py:197-210) with the updater `step_updater` of
optimization/optimization.py:76-80.  `limit` is the recursion limit. -/
def stepOf : ℕ → ℕ → M (Clocks X) ℤ
  | 0, _ => M.raise .recursionError
  | limit + 1, r => fun s =>
    match s.clock r with
    | some k => (.ok k, s)
    | none => match s.parent r with
      | none => (.ok 0, s.store r 0)
      | some q => match stepOf limit q s with
        | (.error e, s1) => (.error e, s1)
        | (.ok k, s1) => (.ok (k + 1), s1.store r (k + 1))

/-- `state.parent = None` (chain.py:187-188) -/
def Clocks.erase (r : ℕ) (s : Clocks X) : Clocks X := { s with parent := Function.update s.parent r none }

/-- a new partition made by `flip` from `p` (partition/partition.py:64, 153-166, 176-185): its parent is `p` and its cache is empty -/
def Clocks.child (p : ℕ) (s : Clocks X) : Clocks X :=
  { s with parent := Function.update s.parent s.count (some p), clock := Function.update s.clock s.count none, count := s.count + 1 }

/-- `partition.parent` -/
def parentOf (r : ℕ) : M (Clocks X) (Option ℕ) := fun s => (.ok (s.parent r), s)

/-- `beta_function(part[self._step_indexer])` (optimization/optimization.py:179): the argument, recorded in `readings` -/
def readClock (limit r : ℕ) : M (Clocks X) ℤ := fun s =>
  match stepOf limit r s with
  | (.error e, s1) => (.error e, s1)
  | (.ok k, s1) => (.ok k, { s1 with readings := s1.readings ++ [k] })

/-- the acceptance function of an annealing run (optimization/optimization.py:155-184) -/
noncomputable def annealRule (o : OptCfg (Clocks X) ℕ ℝ) (random : M (Clocks X) ℝ) (limit : ℕ) (beta : ℤ → Py ℝ) (magnitude : ℝ) :
    ℕ → M (Clocks X) Bool :=
  annealAccept o.maximize parentOf o.score random (readClock limit) beta magnitude

/-- `simulated_annealing(num_steps, beta_function, beta_magnitude)` (optimization/optimization.py:427-473) -/
noncomputable def OptCfg.anneal (o : OptCfg (Clocks X) ℕ ℝ) (random : M (Clocks X) ℝ) (limit : ℕ) (beta : ℤ → Py ℝ) (magnitude : ℝ)
    (steps : ℤ) (fuel body : ℕ) (s : Clocks X) : Except (PyErr × Clocks X) (ℝ × OptRun (Clocks X) ℕ ℝ) :=
  o.singleRun (annealRule o random limit beta magnitude) steps fuel body s

/-- two worlds that agree on everything but `rest` -/
def SameClocks (s s' : Clocks X) : Prop :=
  s.parent = s'.parent ∧ s.clock = s'.clock ∧ s.count = s'.count ∧ s.readings = s'.readings

/-- looking up `step` on several partitions -/
def lookSteps (s : Clocks X) (l : List (ℕ × ℕ)) : Clocks X := l.foldl (fun s p => (stepOf p.1 p.2 s).2) s

/-- `m` does with partitions nothing that concerns the clock except looking up `step`; it may change `rest` at will. -/
def LooksOnly {α : Type} (m : M (Clocks X) α) : Prop := ∀ s, ∃ l, SameClocks (m s).2 (lookSteps s l)

/-- `prop` makes a new partition from the current one, possibly looking up `step` before, as `partition.flip` does in the proposals of
the library (proposals/proposals.py, proposals/tree_proposals.py, proposals/spectral_proposals.py). -/
structure NewPlans (prop : ℕ → M (Clocks X) ℕ) : Prop where
  ok : ∀ st s q s1, prop st s = (.ok q, s1) → ∃ l, q = s.count ∧ SameClocks s1 ((lookSteps s l).child st)

end GC

import Verif.Model.Optimizer

/-!
# Several runs of one optimizer

The runs of `gerrychain/optimization/optimization.py` are generators that share the attributes `_best_part` and `_best_score` of
the optimizer.  `Verif/Model/Optimizer.lean` models one run from its start to its end.  Here the generators are objects that are
resumed one `next` at a time, so that a program may stop a run in the middle, look at the optimizer while it handles a plan, or
advance several runs in turn.  Simplified: the score, the proposal, the constraints and the acceptance functions do not themselves
resume a run of the same optimizer.  Not modelled: `with_progress_bar`, which hands on the states of the same generator.
-/

set_option linter.unusedSectionVars false
set_option autoImplicit false

namespace GC

variable {S R A : Type}

/-- The call that made a generator: `short_bursts` and `tilted_short_bursts` (optimization/optimization.py:376-382, 475-506),
`simulated_annealing` and `tilted_run` (427-433, 572), `variable_length_short_bursts` (509-515), with the acceptance function in
use. -/
inductive OptCall (S R : Type)
  | bursts (accept : R → M S Bool) (length : ℤ) (num : ℕ)
  | single (accept : R → M S Bool) (steps : ℤ)
  | variable (accept : R → M S Bool) (numSteps stuckBuffer : ℤ)

/-- Where a generator of `SingleMetricOptimizer` stands (optimization/optimization.py:376-425, 427-473, 509-607): not begun, waiting at
one of the four `yield part` with its local variables, or ended.  `part` is the state handed out last. -/
inductive OptGen (S R : Type)
  | fresh (c : OptCall S R)
  | inBursts (accept : R → M S Bool) (length : ℤ) (left : ℕ) (cfg : ChainCfg S R) (ch : Chain S R) (part : R)
  | inSingle (cfg : ChainCfg S R) (ch : Chain S R) (part : R)
  | inVar (accept : R → M S Bool) (numSteps stuckBuffer : ℤ) (length stuck i : ℕ) (cfg : ChainCfg S R) (ch : Chain S R) (part : R)
  | finished

/-- `self._best_part` and `self._best_score` (optimization/optimization.py:72-73), which the properties `best_part` and `best_score`
return (optimization/optimization.py:82-102); `none` is `None` -/
structure BestAttr (R A : Type) where
  part : Option R
  score : Option A

/-- what `next(run)` does: hand out a state, raise `StopIteration`, or raise another exception -/
inductive GenRes (R : Type)
  | yields (part : R)
  | stops
  | raises (e : PyErr)

/-- a resumed generator: what happened, where it stands now, the attributes of the optimizer and the world afterwards; `none` when
the fuel ran out -/
abbrev Resumed (S R A : Type) := Option (GenRes R × OptGen S R × BestAttr R A × S)

/-- The head of `for part in chain: yield part` (optimization/optimization.py:419-420, 468-469, 555-556, 601-602): ask the chain for a
state and wait with it, or go on after the loop. -/
def advance (cfg : ChainCfg S R) (ch : Chain S R) (fuel : ℕ) (b : BestAttr R A) (s : S) (wait : Chain S R → R → OptGen S R)
    (after : S → Resumed S R A) : Resumed S R A :=
  match Chain.next cfg ch fuel s with
  | none => none
  | some (.error .stopIteration, _, s1) => after s1
  | some (.error e, _, s1) => some (.raises e, .finished, b, s1)
  | some (.ok part, ch', s1) => some (.yields part, wait ch' part, b, s1)

/-- `MarkovChain(…)` followed by `iter` and the first `next` (optimization/optimization.py:415-420, 552-556) -/
def startChain (o : OptCfg S R A) (accept : R → M S Bool) (length : ℤ) (fuel : ℕ) (b : BestAttr R A) (s : S)
    (wait : ChainCfg S R → Chain S R → R → OptGen S R) (after : S → Resumed S R A) : Resumed S R A :=
  match b.part with
  | none => some (.raises .typeError, .finished, b, s)
  | some p =>
    match Chain.init (o.chain accept p length) o.constraints s with
    | (.error e, s1) => some (.raises (genErr e), .finished, b, s1)
    | (.ok ch, s1) =>
      advance (o.chain accept p length) (ch.iter (o.chain accept p length)) fuel b s1 (wait (o.chain accept p length)) after

/-- `for _ in range(num_bursts)` of `short_bursts` from the start of a burst on (optimization/optimization.py:414-420); the argument
is the number of bursts left. -/
def beginBursts (o : OptCfg S R A) (accept : R → M S Bool) (length : ℤ) (fuel : ℕ) : ℕ → BestAttr R A → S → Resumed S R A
  | 0, b, s => some (.stops, .finished, b, s)
  | n + 1, b, s => startChain o accept length fuel b s (fun cfg ch part => .inBursts accept length n cfg ch part)
      (fun s1 => beginBursts o accept length fuel n b s1)

/-- `while i < num_steps` of `variable_length_short_bursts` from the test on (optimization/optimization.py:551-556, 569-570); the first
argument bounds the number of bursts. -/
def beginVar (o : OptCfg S R A) (accept : R → M S Bool) (numSteps stuckBuffer : ℤ) (fuel : ℕ) :
    ℕ → ℕ → ℕ → ℕ → BestAttr R A → S → Resumed S R A
  | 0, _, _, _, _, _ => none
  | n + 1, length, stuck, i, b, s =>
    if (i : ℤ) < numSteps then
      startChain o accept length fuel b s (fun cfg ch part => .inVar accept numSteps stuckBuffer length stuck i cfg ch part)
        (fun s1 => beginVar o accept numSteps stuckBuffer fuel n (if stuckBuffer * length ≤ (stuck : ℤ) then length * 2 else length) stuck i b s1)
    else some (.stops, .finished, b, s)

/-- `self._best_part = self._initial_part; self._best_score = self.score(self._best_part)` (optimization/optimization.py:411-412, 463-464,
545-546, 596-597): when the score raises, the first assignment has already happened. -/
def resetBest (o : OptCfg S R A) (b : BestAttr R A) (s : S) : Py Unit × BestAttr R A × S :=
  match o.score o.initial s with
  | (.error e, s1) => (.error (genErr e), ⟨some o.initial, b.score⟩, s1)
  | (.ok a, s1) => (.ok (), ⟨some o.initial, some a⟩, s1)

variable [LE A] [DecidableLE A]

/-- `part_score = self.score(part); if self._is_improvement(…): …` (optimization/optimization.py:421-425, 470-473, 557-560, 603-607): whether
the state was an improvement. -/
def process (o : OptCfg S R A) (b : BestAttr R A) (part : R) (s : S) : Py Bool × BestAttr R A × S :=
  match o.score part s with
  | (.error e, s1) => (.error (genErr e), b, s1)
  | (.ok a, s1) =>
    match b.score with
    | none => (.error .typeError, b, s1)
    | some c => if isImprovement o.maximize a c then (.ok true, ⟨some part, some a⟩, s1) else (.ok false, b, s1)

/-- `next(run)` (optimization/optimization.py:411-425, 453-473, 545-570, 588-607): from where the generator stands to its next `yield` -/
def resume (o : OptCfg S R A) (fuel : ℕ) (g : OptGen S R) (b : BestAttr R A) (s : S) : Resumed S R A :=
  match g with
  | .finished => some (.stops, .finished, b, s)
  | .fresh (.bursts accept length num) =>
    match resetBest o b s with
    | (.error e, b1, s1) => some (.raises e, .finished, b1, s1)
    | (.ok (), b1, s1) => beginBursts o accept length fuel num b1 s1
  | .fresh (.single accept steps) =>
    match Chain.init (o.chain accept o.initial steps) o.constraints s with
    | (.error e, s1) => some (.raises (genErr e), .finished, b, s1)
    | (.ok ch, s1) =>
      match resetBest o b s1 with
      | (.error e, b1, s2) => some (.raises e, .finished, b1, s2)
      | (.ok (), b1, s2) =>
        advance (o.chain accept o.initial steps) (ch.iter (o.chain accept o.initial steps)) fuel b1 s2
          (fun ch' part => .inSingle (o.chain accept o.initial steps) ch' part) (fun s3 => some (.stops, .finished, b1, s3))
  | .fresh (.variable accept numSteps stuckBuffer) =>
    match resetBest o b s with
    | (.error e, b1, s1) => some (.raises e, .finished, b1, s1)
    | (.ok (), b1, s1) => beginVar o accept numSteps stuckBuffer fuel fuel 2 0 0 b1 s1
  | .inBursts accept length left cfg ch part =>
    match process o b part s with
    | (.error e, b1, s1) => some (.raises e, .finished, b1, s1)
    | (.ok _, b1, s1) => advance cfg ch fuel b1 s1 (fun ch' part' => .inBursts accept length left cfg ch' part')
        (fun s2 => beginBursts o accept length fuel left b1 s2)
  | .inSingle cfg ch part =>
    match process o b part s with
    | (.error e, b1, s1) => some (.raises e, .finished, b1, s1)
    | (.ok _, b1, s1) => advance cfg ch fuel b1 s1 (fun ch' part' => .inSingle cfg ch' part')
        (fun s2 => some (.stops, .finished, b1, s2))
  | .inVar accept numSteps stuckBuffer length stuck i cfg ch part =>
    match process o b part s with
    | (.error e, b1, s1) => some (.raises e, .finished, b1, s1)
    | (.ok better, b1, s1) =>
      let stuck' := if better then 0 else stuck + 1
      let again := fun s2 => beginVar o accept numSteps stuckBuffer fuel fuel
        (if stuckBuffer * length ≤ (stuck' : ℤ) then length * 2 else length) stuck' (i + 1) b1 s2
      if numSteps ≤ (i + 1 : ℕ) then again s1
      else advance cfg ch fuel b1 s1 (fun ch' part' => .inVar accept numSteps stuckBuffer length stuck' (i + 1) cfg ch' part') again

/-- An optimizer with the generators its methods have returned, in the order of the calls, and the rest of the world
(optimization/optimization.py:31-80). -/
structure OptWorld (S R A : Type) where
  best : BestAttr R A
  gens : List (OptGen S R)
  world : S

/-- What a program does with an optimizer (optimization/optimization.py:376, 427, 475, 509, 572: calls that return a generator; the
generator protocol of python): call a method, `next` or `close` the generator of the `i`-th call, or anything else. -/
inductive OptOp (S R : Type)
  | call (c : OptCall S R)
  | next (i : ℕ)
  | close (i : ℕ)
  | other (f : S → S)

/-- One operation: the result of `next` and the world afterwards; there is no result when the operation is not `next` or there is no
such generator.  Calling a generator function (optimization/optimization.py:376-607) does not run its body; `close` raises
`GeneratorExit` at the `yield`, which nothing catches. -/
def OptOp.run (o : OptCfg S R A) (fuel : ℕ) (op : OptOp S R) (w : OptWorld S R A) : Option (Option (GenRes R) × OptWorld S R A) :=
  match op with
  | .call c => some (none, { w with gens := w.gens ++ [.fresh c] })
  | .close i => some (none, { w with gens := w.gens.set i .finished })
  | .other f => some (none, { w with world := f w.world })
  | .next i =>
    match w.gens[i]? with
    | none => some (none, w)
    | some g =>
      match resume o fuel g w.best w.world with
      | none => none
      | some (r, g', b, s) => some (some r, ⟨b, w.gens.set i g', s⟩)

/-- A program using an optimizer (optimization/optimization.py:31-607): its operations with their results, and the world afterwards;
`none` when the fuel runs out. -/
def runOps (o : OptCfg S R A) (fuel : ℕ) : List (OptOp S R) → OptWorld S R A → Option (List (OptOp S R × Option (GenRes R)) × OptWorld S R A)
  | [], w => some ([], w)
  | op :: ops, w =>
    match op.run o fuel w with
    | none => none
    | some (r, w1) =>
      match runOps o fuel ops w1 with
      | none => none
      | some (l, w2) => some ((op, r) :: l, w2)

end GC

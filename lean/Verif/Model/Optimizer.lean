import Verif.Model.Chain
import Mathlib.Analysis.SpecialFunctions.Exp

/-!
# Optimization runs

Model of the runs and acceptance functions of `gerrychain/optimization/optimization.py` (class `SingleMetricOptimizer`).  The
runs are generators; the model records what is yielded and what the optimizer knows after each yielded state has been processed,
also when the run ends with an exception.  `consumer` is whatever the code iterating over the run does with a yielded state.
Not modelled: `with_progress_bar`, which yields the same states through `tqdm`.
-/

set_option linter.unusedSectionVars false
set_option autoImplicit false

namespace GC

variable {S R A : Type}

/-- `_is_improvement` (optimization/optimization.py:114-130) -/
def isImprovement [LE A] [DecidableLE A] (maximize : Bool) (new old : A) : Bool :=
  if maximize then decide (old ≤ new) else decide (new ≤ old)

/-- The attributes of a `SingleMetricOptimizer` set by `__init__` (optimization/optimization.py:67-74), `state.parent = None` for
the chains it makes, and the code that consumes the run. -/
structure OptCfg (S R A : Type) where
  proposal : R → M S R
  constraints : List (Constraint S R)
  erase : R → S → S
  initial : R
  score : R → M S A
  maximize : Bool
  consumer : R → M S Unit

/-- `MarkovChain(self._proposal, self._constraints, accept, part, steps)` (optimization/optimization.py:415-417, 453-461, 552-554,
588-594): the arguments -/
def OptCfg.chain (o : OptCfg S R A) (accept : R → M S Bool) (part : R) (steps : ℤ) : ChainCfg S R :=
  ⟨o.proposal, accept, o.erase, steps, part⟩

/-- Inside a generator a `StopIteration` that is not caught becomes a `RuntimeError` (PEP 479). -/
def genErr (e : PyErr) : PyErr := if e = .stopIteration then .runtimeError else e

/-- What the optimizer knows after processing a yielded state: the state, its score, `(best_part, best_score)`. -/
structure Snap (R A : Type) where
  part : R
  score : A
  best : R × A

/-- The part of a run that has happened.  `status`: `none` when the fuel ran out, otherwise how it ended. -/
structure OptRun (S R A : Type) where
  status : Option (Py Unit)
  yielded : List R
  trace : List (Snap R A)
  best : R × A
  world : S

variable [LE A] [DecidableLE A]

/-- the new `(best_part, best_score)` (optimization/optimization.py:423-425, 471-473, 558-560, 605-607) -/
def OptCfg.update (o : OptCfg S R A) (best : R × A) (part : R) (score : A) : R × A :=
  if isImprovement o.maximize score best.2 then (part, score) else best

/-- `for part in chain: yield part; …` (optimization/optimization.py:419-425, 468-473, 601-607).  `body` bounds the number of
states, `fuel` the number of proposals per state. -/
def OptCfg.watch (o : OptCfg S R A) (c : ChainCfg S R) (fuel : ℕ) : ℕ → Chain S R → R × A → S → OptRun S R A
  | 0, _, best, s => ⟨none, [], [], best, s⟩
  | body + 1, ch, best, s =>
    match Chain.next c ch fuel s with
    | none => ⟨none, [], [], best, s⟩
    | some (.error .stopIteration, _, s1) => ⟨some (.ok ()), [], [], best, s1⟩
    | some (.error e, _, s1) => ⟨some (.error e), [], [], best, s1⟩
    | some (.ok part, ch', s1) =>
      match o.consumer part s1 with
      | (.error e, s2) => ⟨some (.error e), [part], [], best, s2⟩
      | (.ok (), s2) =>
        match o.score part s2 with
        | (.error e, s3) => ⟨some (.error (genErr e)), [part], [], best, s3⟩
        | (.ok a, s3) =>
          let best' := o.update best part a
          let r := OptCfg.watch o c fuel body ch' best' s3
          { r with yielded := part :: r.yielded, trace := ⟨part, a, best'⟩ :: r.trace }

/-- one run after the other -/
def OptRun.append (r r' : OptRun S R A) : OptRun S R A :=
  { r' with yielded := r.yielded ++ r'.yielded, trace := r.trace ++ r'.trace }

/-- one chain started at `part` -/
def OptCfg.burst (o : OptCfg S R A) (accept : R → M S Bool) (steps : ℤ) (fuel body : ℕ) (best : R × A) (s : S) : OptRun S R A :=
  match Chain.init (o.chain accept best.1 steps) o.constraints s with
  | (.error e, s1) => ⟨some (.error (genErr e)), [], [], best, s1⟩
  | (.ok ch, s1) => o.watch (o.chain accept best.1 steps) fuel body (ch.iter (o.chain accept best.1 steps)) best s1

/-- the loop `for _ in range(num_bursts)` of `short_bursts` (optimization/optimization.py:414-425) -/
def OptCfg.bursts (o : OptCfg S R A) (accept : R → M S Bool) (length : ℤ) (fuel body : ℕ) : ℕ → R × A → S → OptRun S R A
  | 0, best, s => ⟨some (.ok ()), [], [], best, s⟩
  | n + 1, best, s =>
    let r := o.burst accept length fuel body best s
    match r.status with
    | some (.ok ()) => r.append (OptCfg.bursts o accept length fuel body n r.best r.world)
    | _ => r

/-- `short_bursts` (optimization/optimization.py:376-425); the result is the initial score and the run.  `tilted_short_bursts`
(475-506) is `short_bursts` with the tilted acceptance function. -/
def OptCfg.shortBursts (o : OptCfg S R A) (accept : R → M S Bool) (length : ℤ) (num fuel body : ℕ) (s : S) :
    Except (PyErr × S) (A × OptRun S R A) :=
  match o.score o.initial s with
  | (.error e, s1) => .error (genErr e, s1)
  | (.ok a, s1) => .ok (a, o.bursts accept length fuel body num (o.initial, a) s1)

/-- `simulated_annealing` (optimization/optimization.py:427-473) and `tilted_run` (572-607): a single chain from the initial
partition; here the chain is made before the score is computed. -/
def OptCfg.singleRun (o : OptCfg S R A) (accept : R → M S Bool) (steps : ℤ) (fuel body : ℕ) (s : S) :
    Except (PyErr × S) (A × OptRun S R A) :=
  match Chain.init (o.chain accept o.initial steps) o.constraints s with
  | (.error e, s1) => .error (genErr e, s1)
  | (.ok ch, s1) =>
    match o.score o.initial s1 with
    | (.error e, s2) => .error (genErr e, s2)
    | (.ok a, s2) => .ok (a, o.watch (o.chain accept o.initial steps) fuel body (ch.iter (o.chain accept o.initial steps))
        (o.initial, a) s2)

/-- The inner loop of `variable_length_short_bursts` (optimization/optimization.py:555-567): the run, `time_stuck` and `i`. -/
def OptCfg.watchVar (o : OptCfg S R A) (c : ChainCfg S R) (numSteps : ℤ) (fuel : ℕ) :
    ℕ → Chain S R → R × A → ℕ → ℕ → S → OptRun S R A × ℕ × ℕ
  | 0, _, best, stuck, i, s => (⟨none, [], [], best, s⟩, stuck, i)
  | body + 1, ch, best, stuck, i, s =>
    match Chain.next c ch fuel s with
    | none => (⟨none, [], [], best, s⟩, stuck, i)
    | some (.error .stopIteration, _, s1) => (⟨some (.ok ()), [], [], best, s1⟩, stuck, i)
    | some (.error e, _, s1) => (⟨some (.error e), [], [], best, s1⟩, stuck, i)
    | some (.ok part, ch', s1) =>
      match o.consumer part s1 with
      | (.error e, s2) => (⟨some (.error e), [part], [], best, s2⟩, stuck, i)
      | (.ok (), s2) =>
        match o.score part s2 with
        | (.error e, s3) => (⟨some (.error (genErr e)), [part], [], best, s3⟩, stuck, i)
        | (.ok a, s3) =>
          let best' := o.update best part a
          let stuck' := if isImprovement o.maximize a best.2 then 0 else stuck + 1
          if numSteps ≤ (i + 1 : ℕ) then (⟨some (.ok ()), [part], [⟨part, a, best'⟩], best', s3⟩, stuck', i + 1)
          else
            let r := OptCfg.watchVar o c numSteps fuel body ch' best' stuck' (i + 1) s3
            ({ r.1 with yielded := part :: r.1.yielded, trace := ⟨part, a, best'⟩ :: r.1.trace }, r.2)

/-- one burst of `variable_length_short_bursts` (optimization/optimization.py:552-567) -/
def OptCfg.burstVar (o : OptCfg S R A) (accept : R → M S Bool) (numSteps : ℤ) (length fuel body : ℕ) (best : R × A) (stuck i : ℕ)
    (s : S) : OptRun S R A × ℕ × ℕ :=
  match Chain.init (o.chain accept best.1 length) o.constraints s with
  | (.error e, s1) => (⟨some (.error (genErr e)), [], [], best, s1⟩, stuck, i)
  | (.ok ch, s1) => o.watchVar (o.chain accept best.1 length) numSteps fuel body (ch.iter (o.chain accept best.1 length)) best stuck i s1

/-- the loop `while i < num_steps` of `variable_length_short_bursts` (optimization/optimization.py:551-570); the first argument
bounds the number of bursts -/
def OptCfg.varBursts (o : OptCfg S R A) (accept : R → M S Bool) (numSteps stuckBuffer : ℤ) (fuel body : ℕ) :
    ℕ → ℕ → R × A → ℕ → ℕ → S → OptRun S R A
  | 0, _, best, _, _, s => ⟨none, [], [], best, s⟩
  | n + 1, length, best, stuck, i, s =>
    if (i : ℤ) < numSteps then
      let r := o.burstVar accept numSteps length fuel body best stuck i s
      match r.1.status with
      | some (.ok ()) =>
        let length' := if stuckBuffer * length ≤ (r.2.1 : ℤ) then length * 2 else length
        r.1.append (OptCfg.varBursts o accept numSteps stuckBuffer fuel body n length' r.1.best r.2.1 r.2.2 r.1.world)
      | _ => r.1
    else ⟨some (.ok ()), [], [], best, s⟩

/-- `variable_length_short_bursts` (optimization/optimization.py:509-570) -/
def OptCfg.variableLength (o : OptCfg S R A) (accept : R → M S Bool) (numSteps stuckBuffer : ℤ) (fuel body bursts : ℕ) (s : S) :
    Except (PyErr × S) (A × OptRun S R A) :=
  match o.score o.initial s with
  | (.error e, s1) => .error (genErr e, s1)
  | (.ok a, s1) => .ok (a, o.varBursts accept numSteps stuckBuffer fuel body bursts 2 (o.initial, a) 0 0 s1)

/-! ### Acceptance functions -/

/-- `tilted_acceptance_function` (optimization/optimization.py:143-153); `parent` reads `part.parent`, `random` is
`random.random()` -/
noncomputable def tiltedAccept (maximize : Bool) (parent : R → M S (Option R)) (score : R → M S A) (random : M S ℝ) (p : ℝ) (part : R) :
    M S Bool := do
  match ← parent part with
  | none => pure true
  | some q => do
    let a ← score part
    let b ← score q
    if isImprovement maximize a b then pure true
    else do
      let u ← random
      pure (decide (u < p))

/-- `math.exp` raises `OverflowError` when the result exceeds the floating point range.  Simplified: real numbers instead of
floating point numbers otherwise. -/
noncomputable def mathExp (x : ℝ) : Py ℝ := if 2 ^ 1024 ≤ Real.exp x then .error .overflowError else .ok (Real.exp x)

/-- `simulated_annealing_acceptance_function` (optimization/optimization.py:175-183); `step` is `part[self._step_indexer]` -/
noncomputable def annealAccept (maximize : Bool) (parent : R → M S (Option R)) (score : R → M S ℝ) (random : M S ℝ) (step : R → M S ℤ)
    (beta : ℤ → Py ℝ) (magnitude : ℝ) (part : R) : M S Bool := do
  match ← parent part with
  | none => pure true
  | some q => do
    let a ← score part
    let b ← score q
    let t ← step part
    let β ← M.lift (beta t)
    let delta := if maximize then (a - b) * (-1) else a - b
    let u ← random
    let e ← M.lift (mathExp (-β * magnitude * delta))
    pure (decide (u < e))

end GC

import Verif.Py
import Mathlib.Analysis.SpecialFunctions.Log.Basic

/-!
# Annealing schedules

Model of the beta functions of `gerrychain/optimization/optimization.py`.  Durations are natural numbers; exact arithmetic instead
of floating point numbers.
-/

set_option linter.unusedSectionVars false
set_option autoImplicit false

namespace GC

/-- `step % cycle_length` (optimization/optimization.py:206, 234, 272, 309, 361) -/
def timeInCycle (step : ℤ) (cycle : ℕ) : Py ℤ := if cycle = 0 then .error .zeroDivision else .ok (step % cycle)

/-- `jumpcycle_beta_function` (optimization/optimization.py:187-209) -/
def jumpcycleBeta (hot cold : ℕ) (step : ℤ) : Py ℚ := do
  let t ← timeInCycle step (hot + cold)
  pure (if (hot : ℤ) ≤ t then 1 else 0)

/-- `linearcycle_beta_function` (optimization/optimization.py:212-248) -/
def linearcycleBeta (hot cool cold : ℕ) (step : ℤ) : Py ℚ := do
  let t ← timeInCycle step (hot + 2 * cool + cold)
  if t < hot then pure 0
  else if t < hot + cool then
    if cool = 0 then .error .zeroDivision else pure (((t - hot : ℤ) : ℚ) / cool)
  else if t < (hot + 2 * cool + cold : ℕ) - cool then pure 1
  else if cool = 0 then .error .zeroDivision
  else pure (1 - ((t - (hot + 2 * cool + cold : ℕ) + cool : ℤ) : ℚ) / cool)

/-- `linear_jumpcycle_beta_function` (optimization/optimization.py:251-280) -/
def linearJumpcycleBeta (hot cool cold : ℕ) (step : ℤ) : Py ℚ := do
  let t ← timeInCycle step (hot + cool + cold)
  if t < hot then pure 0
  else if t < hot + cool then
    if cool = 0 then .error .zeroDivision else pure (((t - hot : ℤ) : ℚ) / cool)
  else pure 1

/-- `logit` (optimization/optimization.py:306, 358): `math.log` raises `ValueError` outside of its domain -/
noncomputable def logit (x : ℚ) : Py ℝ :=
  if 1 - x = 0 then .error .zeroDivision
  else if x / (1 - x) ≤ 0 then .error .valueError
  else .ok ((Real.log ((x / (1 - x) : ℚ) : ℝ) + 5) / 10)

/-- `if value < 0: return 0; if value > 1: return 1; return value` (optimization/optimization.py:314-318, 326-330, 366-370) -/
noncomputable def clampUnit (v : ℝ) : ℝ := if v < 0 then 0 else if 1 < v then 1 else v

/-- `logitcycle_beta_function` (optimization/optimization.py:283-332); `f` is the function `logit` -/
noncomputable def logitcycleBeta (f : ℚ → Py ℝ) (hot cool cold : ℕ) (step : ℤ) : Py ℝ := do
  let t ← timeInCycle step (hot + 2 * cool + cold)
  if t ≤ hot then pure 0
  else if t < hot + cool then
    if cool = 0 then .error .zeroDivision
    else do
      let v ← f (((t - hot : ℤ) : ℚ) / cool)
      pure (clampUnit v)
  else if t ≤ (hot + 2 * cool + cold : ℕ) - cool then pure 1
  else if cool = 0 then .error .zeroDivision
  else do
    let v ← f (((t - (hot + 2 * cool + cold : ℕ) + cool : ℤ) : ℚ) / cool)
    pure (clampUnit (1 - v))

/-- `logit_jumpcycle_beta_function` (optimization/optimization.py:335-374); `f` is the function `logit` -/
noncomputable def logitJumpcycleBeta (f : ℚ → Py ℝ) (hot cool cold : ℕ) (step : ℤ) : Py ℝ := do
  let t ← timeInCycle step (hot + cool + cold)
  if t ≤ hot then pure 0
  else if t < hot + cool then
    if cool = 0 then .error .zeroDivision
    else do
      let v ← f (((t - hot : ℤ) : ℚ) / cool)
      pure (clampUnit v)
  else pure 1

end GC

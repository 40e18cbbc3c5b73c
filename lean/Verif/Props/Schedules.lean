import Verif.Model.Schedules
import Mathlib.Tactic.FieldSimp
import Mathlib.Tactic.Linarith
import Mathlib.Tactic.NormNum

/-!
# Annealing schedules (C48)
-/

set_option linter.unusedSectionVars false
set_option autoImplicit false

namespace GC

variable {K : Type} [Field K] [LinearOrder K] [IsStrictOrderedRing K]

/-- At every step the function returns a value in [0, 1]; it repeats after `cycle` steps. -/
structure UnitCycle (cycle : ℕ) (beta : ℤ → Py K) : Prop where
  range : ∀ t, ∃ v, beta t = .ok v ∧ 0 ≤ v ∧ v ≤ 1
  periodic : ∀ t, beta (t + cycle) = beta t

/-- The phases of a cycle: hot (value 0) up to `hot`, then not decreasing, cold (value 1) from `coldFrom` up to `coldTo`, then not
increasing up to the end of the cycle. -/
structure Phases (cycle hot coldFrom coldTo : ℕ) (beta : ℤ → Py K) : Prop where
  hot : ∀ t : ℤ, t % cycle < hot → beta t = .ok 0
  cold : ∀ t : ℤ, coldFrom ≤ t % cycle → t % cycle < coldTo → beta t = .ok 1
  cooling : ∀ (t t' : ℤ) (v v' : K), t % cycle ≤ t' % cycle → t' % cycle < coldTo → beta t = .ok v → beta t' = .ok v' → v ≤ v'
  warming : ∀ (t t' : ℤ) (v v' : K), coldFrom ≤ t % cycle → t % cycle ≤ t' % cycle → beta t = .ok v → beta t' = .ok v' → v' ≤ v

theorem timeInCycle_eq {t : ℤ} {n : ℕ} (h : n ≠ 0) : timeInCycle t n = .ok (t % n) := by
  unfold timeInCycle
  rw [if_neg h]

theorem timeInCycle_add {t : ℤ} {n : ℕ} : timeInCycle (t + n) n = timeInCycle t n := by
  unfold timeInCycle
  rw [Int.add_emod_right]

theorem ok_bind {α β : Type} {a : α} {f : α → Py β} : (Except.ok a >>= f) = f a := rfl

/-- A function of the time in the cycle with the four phases hot, cooling, cold, warming. -/
theorem phases_of_shape {n h0 h1 h2 : ℕ} {val : ℤ → K} {beta : ℤ → Py K} (hn : n ≠ 0) (h12 : h1 ≤ h2)
    (hbeta : ∀ t, beta t = .ok (val (t % n)))
    (hhot : ∀ r : ℤ, 0 ≤ r → r < h0 → val r = 0)
    (hup : ∀ r : ℤ, h0 ≤ r → r < h1 → 0 ≤ val r ∧ val r ≤ 1)
    (hmono : ∀ r r' : ℤ, h0 ≤ r → r ≤ r' → r' < h1 → val r ≤ val r')
    (hcold : ∀ r : ℤ, h0 ≤ r → h1 ≤ r → r < h2 → val r = 1)
    (hdown : ∀ r : ℤ, h0 ≤ r → h2 ≤ r → r < n → 0 ≤ val r ∧ val r ≤ 1)
    (hanti : ∀ r r' : ℤ, h0 ≤ r → h2 ≤ r → r ≤ r' → r' < n → val r' ≤ val r) (h01 : h0 ≤ h1) :
    UnitCycle n beta ∧ Phases n h0 h1 h2 beta := by
  have hlt := fun t : ℤ => Int.emod_lt_of_pos t (b := (n : ℤ)) (by exact_mod_cast Nat.pos_of_ne_zero hn)
  have hnn := fun t : ℤ => Int.emod_nonneg t (b := (n : ℤ)) (by exact_mod_cast hn)
  have unit : ∀ t : ℤ, 0 ≤ val (t % n) ∧ val (t % n) ≤ 1 := by
    intro t
    have g1 := hlt t
    have g2 := hnn t
    rcases lt_or_ge (t % (n : ℤ)) h0 with h | h
    · rw [hhot _ g2 h]; exact ⟨le_rfl, zero_le_one⟩
    rcases lt_or_ge (t % (n : ℤ)) h1 with h' | h'
    · exact hup _ h h'
    rcases lt_or_ge (t % (n : ℤ)) h2 with h'' | h''
    · rw [hcold _ h h' h'']; exact ⟨zero_le_one, le_rfl⟩
    · exact hdown _ h h'' g1
  refine ⟨⟨fun t => ⟨_, hbeta t, unit t⟩, fun t => by rw [hbeta, hbeta, Int.add_emod_right]⟩, ⟨fun t ht => ?_, fun t g1 g2 => ?_,
    fun t t' v v' g1 g2 g3 g4 => ?_, fun t t' v v' g1 g2 g3 g4 => ?_⟩⟩
  · rw [hbeta, hhot _ (hnn t) ht]
  · rw [hbeta, hcold _ (by omega) g1 g2]
  · rw [hbeta] at g3 g4
    cases g3; cases g4
    rcases lt_or_ge (t' % (n : ℤ)) h1 with h' | h'
    · rcases lt_or_ge (t % (n : ℤ)) h0 with h | h
      · rw [hhot _ (hnn t) h]; exact (unit t').1
      · exact hmono _ _ h g1 h'
    · rw [hcold _ (by omega) h' g2]; exact (unit t).2
  · rw [hbeta] at g3 g4
    cases g3; cases g4
    rcases lt_or_ge (t % (n : ℤ)) h2 with h' | h'
    · rw [hcold _ (by omega) g1 h']; exact (unit t').2
    · exact hanti _ _ (by omega) h' g2 (hlt t')

/-- value of the linear ramps -/
theorem ramp_mem {a : ℤ} {cool : ℕ} (h0 : 0 ≤ a) (h1 : a ≤ cool) (hc : cool ≠ 0) :
    (0 : ℚ) ≤ (a : ℚ) / cool ∧ (a : ℚ) / cool ≤ 1 := by
  have hc' : (0 : ℚ) < cool := by exact_mod_cast Nat.pos_of_ne_zero hc
  refine ⟨div_nonneg (by exact_mod_cast h0) hc'.le, (div_le_one hc').2 (by exact_mod_cast h1)⟩

theorem ramp_mono {a b : ℤ} {cool : ℕ} (h : a ≤ b) : (a : ℚ) / cool ≤ (b : ℚ) / cool :=
  div_le_div_of_nonneg_right (by exact_mod_cast h) (by exact_mod_cast Nat.zero_le cool)

/-! ### jumpcycle -/

/-- **C48** The value at a step: 0 while hot, 1 while cold. -/
theorem C48_jumpcycle_value (hot cold : ℕ) (h : hot + cold ≠ 0) (t : ℤ) :
    jumpcycleBeta hot cold t = .ok (if t % (hot + cold : ℕ) < hot then 0 else 1) := by
  unfold jumpcycleBeta
  rw [timeInCycle_eq h, ok_bind]
  rcases lt_or_ge (t % ((hot + cold : ℕ) : ℤ)) hot with hlt | hge
  · rw [if_neg (not_le.2 hlt), if_pos hlt]; rfl
  · rw [if_pos hge, if_neg (not_lt.2 hge)]; rfl

/-- **C48** for `jumpcycle_beta_function`, all durations (not both 0) and all steps. -/
theorem C48_jumpcycle (hot cold : ℕ) (h : hot + cold ≠ 0) :
    UnitCycle (hot + cold) (jumpcycleBeta hot cold) ∧ Phases (hot + cold) hot hot (hot + cold) (jumpcycleBeta hot cold) := by
  refine phases_of_shape (val := fun r => if r < hot then 0 else 1) h (by omega) (C48_jumpcycle_value hot cold h)
    (fun r _ h => if_pos h) (fun r h h' => by omega) (fun r r' _ _ _ => by omega) (fun r h _ _ => if_neg (not_lt.2 h))
    (fun r _ _ _ => by omega) (fun r r' _ _ _ _ => by omega) le_rfl

/-! ### linear cycles -/

/-- value of `linearcycle` at time `r` in the cycle -/
def linearcycleValue (hot cool cold : ℕ) (r : ℤ) : ℚ :=
  if r < hot then 0 else if r < hot + cool then ((r - hot : ℤ) : ℚ) / cool
  else if r < hot + cool + cold then 1 else ((hot + 2 * cool + cold - r : ℤ) : ℚ) / cool

/-- value of `linear_jumpcycle` at time `r` in the cycle -/
def linearJumpValue (hot cool : ℕ) (r : ℤ) : ℚ :=
  if r < hot then 0 else if r < hot + cool then ((r - hot : ℤ) : ℚ) / cool else 1

/-- **C48** The value of `linearcycle_beta_function` at a step: 0, then linear up to 1, then 1, then linear down to 0. -/
theorem C48_linearcycle_value (hot cool cold : ℕ) (h : hot + 2 * cool + cold ≠ 0) (t : ℤ) :
    linearcycleBeta hot cool cold t = .ok (linearcycleValue hot cool cold (t % (hot + 2 * cool + cold : ℕ))) := by
  have hlt : t % ((hot + 2 * cool + cold : ℕ) : ℤ) < (hot + 2 * cool + cold : ℕ) :=
    Int.emod_lt_of_pos t (by exact_mod_cast Nat.pos_of_ne_zero h)
  unfold linearcycleBeta linearcycleValue
  rw [timeInCycle_eq h, ok_bind]
  generalize t % ((hot + 2 * cool + cold : ℕ) : ℤ) = r at hlt ⊢
  push_cast at hlt ⊢
  by_cases h1 : r < hot
  · rw [if_pos h1, if_pos h1]; rfl
  rw [if_neg h1, if_neg h1]
  by_cases h2 : r < hot + cool
  · rw [if_pos h2, if_pos h2, if_neg (by omega)]; rfl
  rw [if_neg h2, if_neg h2]
  by_cases h3 : r < hot + cool + cold
  · rw [if_pos h3, if_pos (by omega)]; rfl
  rw [if_neg h3, if_neg (by omega)]
  have hc : cool ≠ 0 := by rintro rfl; push_cast at hlt; omega
  rw [if_neg hc]
  have hc' : (cool : ℚ) ≠ 0 := by exact_mod_cast hc
  refine congrArg Except.ok ?_
  field_simp
  ring

/-- **C48** for `linearcycle_beta_function`, all durations (not all 0) and all steps. -/
theorem C48_linearcycle (hot cool cold : ℕ) (h : hot + 2 * cool + cold ≠ 0) :
    UnitCycle (hot + 2 * cool + cold) (linearcycleBeta hot cool cold) ∧
      Phases (hot + 2 * cool + cold) hot (hot + cool) (hot + cool + cold) (linearcycleBeta hot cool cold) := by
  refine phases_of_shape h (by omega) (C48_linearcycle_value hot cool cold h)
    (fun r _ h => if_pos h) (fun r h h' => ?_) (fun r r' h h' h'' => ?_) (fun r h h' h'' => ?_)
    (fun r h h' h'' => ?_) (fun r r' h h' h'' h3 => ?_) (by omega) <;> push_cast at * <;> unfold linearcycleValue
  · rw [if_neg (by omega), if_pos h']
    exact_mod_cast ramp_mem (a := r - hot) (by omega) (by omega) (by omega)
  · rw [if_neg (by omega), if_pos (by omega), if_neg (by omega), if_pos (by omega)]
    exact_mod_cast ramp_mono (a := r - hot) (b := r' - hot) (by omega)
  · rw [if_neg (by omega), if_neg (by omega), if_pos (by omega)]
  · rw [if_neg (by omega), if_neg (by omega), if_neg (by omega)]
    exact_mod_cast ramp_mem (a := hot + 2 * cool + cold - r) (by omega) (by omega) (by omega)
  · rw [if_neg (by omega), if_neg (by omega), if_neg (by omega), if_neg (by omega), if_neg (by omega), if_neg (by omega)]
    exact_mod_cast ramp_mono (a := hot + 2 * cool + cold - r') (b := hot + 2 * cool + cold - r) (by omega)

/-- **C48** The value of `linear_jumpcycle_beta_function` at a step: 0, then linear up to 1, then 1. -/
theorem C48_linear_jumpcycle_value (hot cool cold : ℕ) (h : hot + cool + cold ≠ 0) (t : ℤ) :
    linearJumpcycleBeta hot cool cold t = .ok (linearJumpValue hot cool (t % (hot + cool + cold : ℕ))) := by
  unfold linearJumpcycleBeta linearJumpValue
  rw [timeInCycle_eq h, ok_bind]
  generalize t % ((hot + cool + cold : ℕ) : ℤ) = r
  by_cases h1 : r < hot
  · rw [if_pos h1, if_pos h1]; rfl
  rw [if_neg h1, if_neg h1]
  by_cases h2 : r < hot + cool
  · rw [if_pos h2, if_pos h2, if_neg (by omega)]; rfl
  · rw [if_neg h2, if_neg h2]; rfl

/-- **C48** for `linear_jumpcycle_beta_function`, all durations (not all 0) and all steps. -/
theorem C48_linear_jumpcycle (hot cool cold : ℕ) (h : hot + cool + cold ≠ 0) :
    UnitCycle (hot + cool + cold) (linearJumpcycleBeta hot cool cold) ∧
      Phases (hot + cool + cold) hot (hot + cool) (hot + cool + cold) (linearJumpcycleBeta hot cool cold) := by
  refine phases_of_shape h (by omega) (C48_linear_jumpcycle_value hot cool cold h)
    (fun r _ h => if_pos h) (fun r h h' => ?_) (fun r r' h h' h'' => ?_) (fun r h h' h'' => ?_)
    (fun r h h' h'' => by omega) (fun r r' h h' h'' h3 => by omega) (by omega) <;> push_cast at * <;> unfold linearJumpValue
  · rw [if_neg (by omega), if_pos h']
    exact_mod_cast ramp_mem (a := r - hot) (by omega) (by omega) (by omega)
  · rw [if_neg (by omega), if_pos (by omega), if_neg (by omega), if_pos (by omega)]
    exact_mod_cast ramp_mono (a := r - hot) (b := r' - hot) (by omega)
  · rw [if_neg (by omega), if_neg (by omega)]

/-! ### logit cycles -/

theorem clampUnit_mem (v : ℝ) : 0 ≤ clampUnit v ∧ clampUnit v ≤ 1 := by
  unfold clampUnit
  split_ifs <;> constructor <;> linarith

theorem clampUnit_mono {v w : ℝ} (h : v ≤ w) : clampUnit v ≤ clampUnit w := by
  unfold clampUnit
  split_ifs <;> linarith

/-- The value of `logit` strictly between 0 and 1. -/
noncomputable def logitValue (x : ℚ) : ℝ := (Real.log ((x / (1 - x) : ℚ) : ℝ) + 5) / 10

theorem logit_eq {x : ℚ} (h0 : 0 < x) (h1 : x < 1) : logit x = .ok (logitValue x) := by
  unfold logit logitValue
  rw [if_neg (by linarith), if_neg (not_le.2 (div_pos h0 (by linarith)))]

theorem logitValue_mono {x y : ℚ} (h0 : 0 < x) (h : x ≤ y) (h1 : y < 1) : logitValue x ≤ logitValue y := by
  unfold logitValue
  have hx : (0 : ℚ) < x / (1 - x) := div_pos h0 (by linarith)
  have hxy : x / (1 - x) ≤ y / (1 - y) := by
    rw [div_le_div_iff₀ (by linarith) (by linarith)]
    nlinarith
  have := Real.log_le_log (x := ((x / (1 - x) : ℚ) : ℝ)) (y := ((y / (1 - y) : ℚ) : ℝ)) (by exact_mod_cast hx) (by exact_mod_cast hxy)
  linarith

theorem ramp_strict {a : ℤ} {cool : ℕ} (h0 : 0 < a) (h1 : a < cool) : (0 : ℚ) < (a : ℚ) / cool ∧ (a : ℚ) / cool < 1 := by
  have hc' : (0 : ℚ) < cool := by
    have : 0 < cool := by omega
    exact_mod_cast this
  exact ⟨div_pos (by exact_mod_cast h0) hc', (div_lt_one hc').2 (by exact_mod_cast h1)⟩

/-- value of `logitcycle` at time `r` in the cycle -/
noncomputable def logitcycleValue (g : ℚ → ℝ) (hot cool cold : ℕ) (r : ℤ) : ℝ :=
  if r ≤ hot then 0 else if r < hot + cool then clampUnit (g (((r - hot : ℤ) : ℚ) / cool))
  else if r ≤ hot + cool + cold then 1 else clampUnit (1 - g (((r - (hot + cool + cold) : ℤ) : ℚ) / cool))

/-- value of `logit_jumpcycle` at time `r` in the cycle -/
noncomputable def logitJumpValue (g : ℚ → ℝ) (hot cool : ℕ) (r : ℤ) : ℝ :=
  if r ≤ hot then 0 else if r < hot + cool then clampUnit (g (((r - hot : ℤ) : ℚ) / cool)) else 1

/-- **C48** The logit argument is always strictly between 0 and 1: a function `f` in place of `logit` that returns `g x` for
`0 < x < 1` and does anything (raises, say) elsewhere is never called elsewhere.  So `ValueError` and `ZeroDivisionError` never happen,
and the values are those of the documented curve `g`, cut off at 0 and 1. -/
theorem C48_logitcycle_value (f : ℚ → Py ℝ) (g : ℚ → ℝ) (hf : ∀ x, 0 < x → x < 1 → f x = .ok (g x)) (hot cool cold : ℕ)
    (h : hot + 2 * cool + cold ≠ 0) (t : ℤ) :
    logitcycleBeta f hot cool cold t = .ok (logitcycleValue g hot cool cold (t % (hot + 2 * cool + cold : ℕ))) := by
  have hlt : t % ((hot + 2 * cool + cold : ℕ) : ℤ) < (hot + 2 * cool + cold : ℕ) :=
    Int.emod_lt_of_pos t (by exact_mod_cast Nat.pos_of_ne_zero h)
  unfold logitcycleBeta logitcycleValue
  rw [timeInCycle_eq h, ok_bind]
  generalize t % ((hot + 2 * cool + cold : ℕ) : ℤ) = r at hlt ⊢
  push_cast at hlt ⊢
  by_cases h1 : r ≤ hot
  · rw [if_pos h1, if_pos h1]; rfl
  rw [if_neg h1, if_neg h1]
  by_cases h2 : r < hot + cool
  · obtain ⟨g1, g2⟩ := ramp_strict (a := r - hot) (cool := cool) (by omega) (by omega)
    push_cast at g1 g2
    rw [if_pos h2, if_pos h2, if_neg (by omega), hf _ g1 g2]; rfl
  rw [if_neg h2, if_neg h2]
  by_cases h3 : r ≤ hot + cool + cold
  · rw [if_pos h3, if_pos (by omega)]; rfl
  rw [if_neg h3, if_neg (by omega), if_neg (by omega)]
  obtain ⟨g1, g2⟩ := ramp_strict (a := r - (hot + cool + cold)) (cool := cool) (by omega) (by omega)
  push_cast at g1 g2
  rw [show (r : ℚ) - (hot + 2 * cool + cold) + cool = r - (hot + cool + cold) by ring, hf _ g1 g2]
  rfl

/-- **C48** The same for `logit_jumpcycle_beta_function`. -/
theorem C48_logit_jumpcycle_value (f : ℚ → Py ℝ) (g : ℚ → ℝ) (hf : ∀ x, 0 < x → x < 1 → f x = .ok (g x)) (hot cool cold : ℕ)
    (h : hot + cool + cold ≠ 0) (t : ℤ) :
    logitJumpcycleBeta f hot cool cold t = .ok (logitJumpValue g hot cool (t % (hot + cool + cold : ℕ))) := by
  unfold logitJumpcycleBeta logitJumpValue
  rw [timeInCycle_eq h, ok_bind]
  generalize t % ((hot + cool + cold : ℕ) : ℤ) = r
  push_cast
  by_cases h1 : r ≤ hot
  · rw [if_pos h1, if_pos h1]; rfl
  rw [if_neg h1, if_neg h1]
  by_cases h2 : r < hot + cool
  · obtain ⟨g1, g2⟩ := ramp_strict (a := r - hot) (cool := cool) (by omega) (by omega)
    push_cast at g1 g2
    rw [if_pos h2, if_pos h2, if_neg (by omega), hf _ g1 g2]; rfl
  · rw [if_neg h2, if_neg h2]; rfl

/-- **C48** `logitcycle_beta_function` and `logit_jumpcycle_beta_function`: values in [0, 1] and periodicity for all durations (not all
0) and all steps. -/
theorem C48_logit_unit (hot cool cold : ℕ) :
    (hot + 2 * cool + cold ≠ 0 → UnitCycle (hot + 2 * cool + cold) (logitcycleBeta logit hot cool cold)) ∧
      (hot + cool + cold ≠ 0 → UnitCycle (hot + cool + cold) (logitJumpcycleBeta logit hot cool cold)) := by
  refine ⟨fun h => ⟨fun t => ⟨_, C48_logitcycle_value logit logitValue (fun _ => logit_eq) hot cool cold h t, ?_⟩, fun t => ?_⟩,
    fun h => ⟨fun t => ⟨_, C48_logit_jumpcycle_value logit logitValue (fun _ => logit_eq) hot cool cold h t, ?_⟩, fun t => ?_⟩⟩
  · unfold logitcycleValue
    split_ifs <;> first | exact clampUnit_mem _ | norm_num
  · rw [C48_logitcycle_value logit logitValue (fun _ => logit_eq) hot cool cold h,
      C48_logitcycle_value logit logitValue (fun _ => logit_eq) hot cool cold h, Int.add_emod_right]
  · unfold logitJumpValue
    split_ifs <;> first | exact clampUnit_mem _ | norm_num
  · rw [C48_logit_jumpcycle_value logit logitValue (fun _ => logit_eq) hot cool cold h,
      C48_logit_jumpcycle_value logit logitValue (fun _ => logit_eq) hot cool cold h, Int.add_emod_right]

/-- **C48 (partial)** The phases of `logitcycle_beta_function` for a cooldown of at least one step.  Missing: cooldown 0
(`C48_logit_violation`). -/
theorem C48_logitcycle_partial (hot cool cold : ℕ) (hc : cool ≠ 0) :
    Phases (hot + 2 * cool + cold) hot (hot + cool) (hot + cool + cold) (logitcycleBeta logit hot cool cold) := by
  refine (phases_of_shape (by omega) (by omega) (C48_logitcycle_value logit logitValue (fun _ => logit_eq) hot cool cold (by omega))
    (fun r _ h => if_pos h.le) (fun r h h' => ?_) (fun r r' h h' h'' => ?_) (fun r h h' h'' => ?_)
    (fun r h h' h'' => ?_) (fun r r' h h' h'' h3 => ?_) (by omega)).2 <;> push_cast at * <;> unfold logitcycleValue
  · split_ifs <;> first | exact clampUnit_mem _ | norm_num
  · by_cases g : r ≤ hot
    · rw [if_pos g]
      split_ifs <;> first | exact (clampUnit_mem _).1 | norm_num
    · rw [if_neg g, if_pos (by omega), if_neg (by omega), if_pos (by omega)]
      exact clampUnit_mono (logitValue_mono (ramp_strict (by omega) (by omega)).1 (ramp_mono (by omega))
        (ramp_strict (by omega) (by omega)).2)
  · rw [if_neg (by omega), if_neg (by omega), if_pos (by omega)]
  · split_ifs <;> first | exact clampUnit_mem _ | norm_num
  · by_cases g : r ≤ hot + cool + cold
    · rw [if_neg (c := r ≤ hot) (by omega), if_neg (c := r < hot + cool) (by omega), if_pos g]
      split_ifs <;> first | exact (clampUnit_mem _).2 | norm_num
    · rw [if_neg (by omega), if_neg (by omega), if_neg (by omega), if_neg (by omega), if_neg (by omega), if_neg (by omega)]
      refine clampUnit_mono ?_
      have := logitValue_mono (ramp_strict (a := r - (hot + cool + cold)) (cool := cool) (by omega) (by omega)).1
        (ramp_mono (a := r - (hot + cool + cold)) (b := r' - (hot + cool + cold)) (by omega)) (ramp_strict (by omega) (by omega)).2
      linarith

/-- **C48 (partial)** The phases of `logit_jumpcycle_beta_function` for a cooldown of at least one step.  Missing: cooldown 0
(`C48_logit_violation`). -/
theorem C48_logit_jumpcycle_partial (hot cool cold : ℕ) (hc : cool ≠ 0) :
    Phases (hot + cool + cold) hot (hot + cool) (hot + cool + cold) (logitJumpcycleBeta logit hot cool cold) := by
  refine (phases_of_shape (by omega) (by omega) (C48_logit_jumpcycle_value logit logitValue (fun _ => logit_eq) hot cool cold (by omega))
    (fun r _ h => if_pos h.le) (fun r h h' => ?_) (fun r r' h h' h'' => ?_) (fun r h h' h'' => ?_)
    (fun r h h' h'' => by omega) (fun r r' h h' h'' h3 => by omega) (by omega)).2 <;> push_cast at * <;> unfold logitJumpValue
  · split_ifs <;> first | exact clampUnit_mem _ | norm_num
  · by_cases g : r ≤ hot
    · rw [if_pos g]
      split_ifs <;> first | exact (clampUnit_mem _).1 | norm_num
    · rw [if_neg g, if_pos (by omega), if_neg (by omega), if_pos (by omega)]
      exact clampUnit_mono (logitValue_mono (ramp_strict (by omega) (by omega)).1 (ramp_mono (by omega))
        (ramp_strict (by omega) (by omega)).2)
  · rw [if_neg (by omega), if_neg (by omega)]

/-- **C48 (violation)** Without a cooldown both logit schedules stay hot one step too long: the first step of every cold phase gets 0.
Their linear counterparts and `jumpcycle` return 1 there. -/
theorem C48_logit_violation (hot cold : ℕ) (hc : cold ≠ 0) :
    logitcycleBeta logit hot 0 cold hot = .ok 0 ∧ logitJumpcycleBeta logit hot 0 cold hot = .ok 0 ∧
      linearcycleBeta hot 0 cold hot = .ok 1 ∧ linearJumpcycleBeta hot 0 cold hot = .ok 1 ∧ jumpcycleBeta hot cold hot = .ok 1 := by
  have h : (hot : ℤ) % ((hot + cold : ℕ) : ℤ) = hot := Int.emod_eq_of_lt (by omega) (by push_cast; omega)
  refine ⟨?_, ?_, ?_, ?_, ?_⟩
  · rw [C48_logitcycle_value logit logitValue (fun _ => logit_eq) _ _ _ (by omega)]
    simp only [Nat.mul_zero, Nat.add_zero, h]
    simp [logitcycleValue]
  · rw [C48_logit_jumpcycle_value logit logitValue (fun _ => logit_eq) _ _ _ (by omega)]
    simp only [Nat.add_zero, h]
    simp [logitJumpValue]
  · rw [C48_linearcycle_value _ _ _ (by omega)]
    simp only [Nat.mul_zero, Nat.add_zero, h]
    simp [linearcycleValue, Nat.pos_of_ne_zero hc]
  · rw [C48_linear_jumpcycle_value _ _ _ (by omega)]
    simp only [Nat.add_zero, h]
    simp [linearJumpValue]
  · rw [C48_jumpcycle_value _ _ (by omega), h]
    simp

/-- **C48** When all durations are 0 every schedule raises `ZeroDivisionError` at every step. -/
theorem C48_empty_cycle (t : ℤ) : jumpcycleBeta 0 0 t = .error .zeroDivision ∧ linearcycleBeta 0 0 0 t = .error .zeroDivision ∧
    linearJumpcycleBeta 0 0 0 t = .error .zeroDivision ∧ logitcycleBeta logit 0 0 0 t = .error .zeroDivision ∧
    logitJumpcycleBeta logit 0 0 0 t = .error .zeroDivision := ⟨rfl, rfl, rfl, rfl, rfl⟩

/-! ### Examples -/

example : (List.range 9).map (fun t => (linearcycleBeta 2 2 1 t).toOption) =
    [some 0, some 0, some 0, some (1 / 2), some 1, some 1, some (1 / 2), some 0, some 0] := by decide +kernel

example : (List.range 6).map (fun t => (linearJumpcycleBeta 1 2 2 t).toOption) =
    [some 0, some 0, some (1 / 2), some 1, some 1, some 0] := by decide +kernel

example : (List.range 6).map (fun t => (jumpcycleBeta 2 3 t).toOption) = [some 0, some 0, some 1, some 1, some 1, some 0] := by decide +kernel

/-- half way through the cooldown the logit curve is at 1/2 -/
example : logitcycleBeta logit 3 4 2 5 = .ok (1 / 2) ∧ logitJumpcycleBeta logit 3 4 2 (5 + 9) = .ok (1 / 2) := by
  have hg : logitValue (2 / 4) = 1 / 2 := by
    unfold logitValue
    norm_num
  have hc : clampUnit (1 / 2) = 1 / 2 := by unfold clampUnit; norm_num
  constructor
  · rw [C48_logitcycle_value logit logitValue (fun _ => logit_eq) _ _ _ (by omega)]
    simp only [logitcycleValue]
    norm_num
    rw [show (1 / 2 : ℚ) = 2 / 4 by norm_num, hg]
    norm_num [hc]
  · rw [C48_logit_jumpcycle_value logit logitValue (fun _ => logit_eq) _ _ _ (by omega)]
    simp only [logitJumpValue]
    norm_num
    rw [show (1 / 2 : ℚ) = 2 / 4 by norm_num, hg]
    norm_num [hc]

end GC

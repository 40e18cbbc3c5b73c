import Verif.Model.UtmCoords
import Verif.Props.Utm
import Mathlib.Analysis.SpecialFunctions.Trigonometric.Bounds
import Mathlib.Analysis.Real.Pi.Bounds
import Mathlib.Tactic.Linarith
import Mathlib.Tactic.FieldSimp
import Mathlib.Tactic.Ring
import Mathlib.Tactic.Positivity

/-!
# C120: UTM coordinates

`from_latlon` mirrors east and west at the central meridian and north and south at the equator, and what it returns is accepted by `to_latlon` (except at longitude 180).  `to_latlon`
mirrors east and west, but not north and south: a term of the latitude has the wrong sign in the south.
-/

set_option linter.unusedSectionVars false
set_option autoImplicit false

namespace GC

open Real

/-! ### Constants -/

theorem utmE_eq : utmE = 669438 / 100000000 := rfl

theorem utmEP2_bounds : 0 < utmEP2 ∧ utmEP2 < 68 / 10000 := by
  unfold utmEP2 utmE; constructor <;> norm_num

theorem utmSqrtE_bounds : 99 / 100 ≤ utmSqrtE ∧ utmSqrtE < 1 := by
  unfold utmSqrtE utmE
  constructor
  · exact Real.le_sqrt_of_sq_le (by norm_num)
  · rw [Real.sqrt_lt' one_pos]; norm_num

theorem utmE1_bounds : 0 < utmE1 ∧ utmE1 < 6 / 1000 := by
  obtain ⟨h1, h2⟩ := utmSqrtE_bounds
  unfold utmE1
  constructor
  · exact div_pos (by linarith) (by linarith)
  · rw [div_lt_iff₀ (by linarith)]; linarith

theorem utmM_bounds : 998 / 1000 < utmM1 ∧ utmM1 < 1 ∧ 0 < utmM2 ∧ utmM2 < 3 / 1000 ∧ 0 < utmM3 ∧ utmM3 < 1 / 10000 ∧ 0 < utmM4 ∧ utmM4 < 1 / 10000 := by
  unfold utmM1 utmM2 utmM3 utmM4 utmE
  norm_num

theorem utmN_bounds (φ : ℝ) : 6378137 ≤ utmN φ ∧ utmN φ < 6443000 := by
  have hs : 0 ≤ sin φ ^ 2 := sq_nonneg _
  have hs' : sin φ ^ 2 ≤ 1 := sin_sq_le_one φ
  have h1 : 99 / 100 ≤ √(1 - utmE * sin φ ^ 2) := Real.le_sqrt_of_sq_le (by rw [utmE_eq]; linarith)
  have h2 : √(1 - utmE * sin φ ^ 2) ≤ 1 := Real.sqrt_le_one.2 (by rw [utmE_eq]; linarith)
  unfold utmN utmR
  constructor
  · rw [le_div_iff₀ (by linarith)]; linarith
  · rw [div_lt_iff₀ (by linarith)]; linarith

theorem utmN_neg (φ : ℝ) : utmN (-φ) = utmN φ := by
  unfold utmN; rw [sin_neg, neg_sq]

/-! ### Mirror images -/

theorem utmEasting_mirror (φ δ : ℝ) : utmEasting φ (-δ) = 1000000 - utmEasting φ δ := by
  unfold utmEasting; simp only; ring

theorem utmNorthing_mirror (φ δ : ℝ) : utmNorthing φ (-δ) = utmNorthing φ δ := by
  unfold utmNorthing; simp only; ring

theorem utmEasting_south (φ δ : ℝ) : utmEasting (-φ) δ = utmEasting φ δ := by
  unfold utmEasting; simp only [utmN_neg, sin_neg, cos_neg]; ring

theorem utmMeridian_neg (φ : ℝ) : utmMeridian (-φ) = -utmMeridian φ := by
  unfold utmMeridian; simp only [mul_neg, sin_neg]; ring

theorem utmNorthing_south (φ δ : ℝ) : utmNorthing (-φ) δ = -utmNorthing φ δ := by
  unfold utmNorthing; simp only [utmN_neg, sin_neg, cos_neg, utmMeridian_neg]; ring

theorem utmFoot_neg (y : ℝ) : utmFoot (-y) = -utmFoot y := by
  unfold utmFoot; simp only [neg_div, mul_neg, sin_neg]; ring

theorem utmLongitude_mirror (x y : ℝ) : utmLongitude (-x) y = -utmLongitude x y := by
  unfold utmLongitude; simp only; ring

theorem utmLatitude_mirror (x y : ℝ) : utmLatitude (-x) y = utmLatitude x y := by
  unfold utmLatitude; simp only; ring

theorem utmLongitude_south (x y : ℝ) : utmLongitude x (-y) = utmLongitude x y := by
  unfold utmLongitude; simp only [utmFoot_neg, utmN_neg, sin_neg, cos_neg]; ring

/-- the term of the latitude that has the wrong sign in the south -/
noncomputable def utmSixth (x y : ℝ) : ℝ :=
  (x / (utmN (utmFoot y) * utmK0)) ^ 6 / 720 * (61 + 90 * (sin (utmFoot y) / cos (utmFoot y)) ^ 2 + 298 * (utmE1 * cos (utmFoot y) ^ 2) +
    45 * (sin (utmFoot y) / cos (utmFoot y)) ^ 4 - 252 * utmEP2 - 3 * (utmE1 * cos (utmFoot y) ^ 2) ^ 2)

theorem utmSixth_pos {x : ℝ} (hx : x ≠ 0) (y : ℝ) : 0 < utmSixth x y := by
  unfold utmSixth
  have hN := (utmN_bounds (utmFoot y)).1
  obtain ⟨h1, h2⟩ := utmE1_bounds
  have hE := utmEP2_bounds.2
  have hK : 0 < utmK0 := by unfold utmK0; norm_num
  have hd : 0 < (x / (utmN (utmFoot y) * utmK0)) ^ 6 := by
    rw [show (6 : ℕ) = 2 * 3 from rfl, pow_mul]
    have : x / (utmN (utmFoot y) * utmK0) ≠ 0 := div_ne_zero hx (mul_pos (by linarith) hK).ne'
    positivity
  have hc0 : 0 ≤ cos (utmFoot y) ^ 2 := sq_nonneg _
  have hc1 : cos (utmFoot y) ^ 2 ≤ 1 := cos_sq_le_one _
  set c := utmE1 * cos (utmFoot y) ^ 2 with hc
  have g0 : 0 ≤ c := mul_nonneg h1.le hc0
  have g1 : c ≤ 1 := by nlinarith
  have g2 : c ^ 2 ≤ 1 := by nlinarith
  have t2 : 0 ≤ (sin (utmFoot y) / cos (utmFoot y)) ^ 2 := sq_nonneg _
  have t4 : 0 ≤ (sin (utmFoot y) / cos (utmFoot y)) ^ 4 := by positivity
  exact mul_pos (div_pos hd (by norm_num)) (by linarith)

theorem utmLatitude_south (x y : ℝ) : utmLatitude x (-y) = 2 * utmSixth x y - utmLatitude x y := by
  unfold utmLatitude utmSixth; simp only [utmFoot_neg, utmN_neg, sin_neg, cos_neg]; ring

/-! ### How large the coordinates are -/

theorem utmMeridian_strictMono : StrictMono utmMeridian := by
  intro x y h
  obtain ⟨a1, a2, b1, b2, c1, c2, d1, d2⟩ := utmM_bounds
  have k : ∀ j : ℝ, 0 < j → |sin (j * y) - sin (j * x)| ≤ j * (y - x) := fun j hj => by
    refine (abs_sin_sub_sin_le _ _).trans (le_of_eq ?_)
    rw [← mul_sub, abs_of_pos (mul_pos hj (by linarith))]
  have k2 := abs_le.1 (k 2 (by norm_num))
  have k4 := abs_le.1 (k 4 (by norm_num))
  have k6 := abs_le.1 (k 6 (by norm_num))
  have hd : 0 < y - x := by linarith
  have e2 : utmM2 * (sin (2 * y) - sin (2 * x)) ≤ 3 / 1000 * (2 * (y - x)) := by
    refine (mul_le_mul_of_nonneg_left k2.2 b1.le).trans (mul_le_mul_of_nonneg_right b2.le (by linarith))
  have e4 : -(1 / 10000 * (4 * (y - x))) ≤ utmM3 * (sin (4 * y) - sin (4 * x)) := by
    have := mul_le_mul_of_nonneg_left k4.1 c1.le
    have := mul_le_mul_of_nonneg_right c2.le (show 0 ≤ 4 * (y - x) by linarith)
    linarith
  have e6 : utmM4 * (sin (6 * y) - sin (6 * x)) ≤ 1 / 10000 * (6 * (y - x)) := by
    refine (mul_le_mul_of_nonneg_left k6.2 d1.le).trans (mul_le_mul_of_nonneg_right d2.le (by linarith))
  have e1 : 998 / 1000 * (y - x) ≤ utmM1 * (y - x) := mul_le_mul_of_nonneg_right a1.le hd.le
  unfold utmMeridian utmR
  refine mul_lt_mul_of_pos_left ?_ (by norm_num)
  linarith

theorem utmMeridian_zero : utmMeridian 0 = 0 := by unfold utmMeridian; simp

theorem utmMeridian_le {φ : ℝ} (h0 : 0 ≤ φ) (h1 : φ ≤ 147 / 100) : utmMeridian φ ≤ 9420000 := by
  obtain ⟨a1, a2, b1, b2, c1, c2, d1, d2⟩ := utmM_bounds
  have e1 : utmM1 * φ ≤ 147 / 100 := by nlinarith
  have e2 : -(3 / 1000) ≤ utmM2 * sin (2 * φ) := by nlinarith [neg_one_le_sin (2 * φ)]
  have e3 : utmM3 * sin (4 * φ) ≤ 1 / 10000 := by nlinarith [sin_le_one (4 * φ)]
  have e4 : -(1 / 10000) ≤ utmM4 * sin (6 * φ) := by nlinarith [neg_one_le_sin (6 * φ)]
  unfold utmMeridian utmR
  linarith

theorem utmEasting_eq {φ : ℝ} (hc : cos φ ≠ 0) (δ : ℝ) : utmEasting φ δ = utmK0 * utmN φ * (cos φ * δ) * (1 + δ ^ 2 / 6 * (2 * cos φ ^ 2 - 1 + utmEP2 * cos φ ^ 4) +
    δ ^ 4 / 120 * (5 * cos φ ^ 4 - 18 * cos φ ^ 2 * (1 - cos φ ^ 2) + (1 - cos φ ^ 2) ^ 2 + (72 * (utmEP2 * cos φ ^ 2) - 58 * utmEP2) * cos φ ^ 4)) + 500000 := by
  have hs : sin φ ^ 2 = 1 - cos φ ^ 2 := by linarith [sin_sq_add_cos_sq φ]
  have h4 : sin φ ^ 4 = (1 - cos φ ^ 2) ^ 2 := by rw [← hs]; ring
  unfold utmEasting
  simp only [div_pow, hs, h4]
  field_simp
  ring

theorem utmNorthing_eq {φ : ℝ} (hc : cos φ ≠ 0) (δ : ℝ) : utmNorthing φ δ = utmK0 * (utmMeridian φ + utmN φ * (sin φ * cos φ * δ ^ 2) *
    (1 / 2 + δ ^ 2 / 24 * (5 * cos φ ^ 2 - (1 - cos φ ^ 2) + (9 * (utmEP2 * cos φ ^ 2) + 4 * (utmEP2 * cos φ ^ 2) ^ 2) * cos φ ^ 2) +
      δ ^ 4 / 720 * (61 * cos φ ^ 4 - 58 * cos φ ^ 2 * (1 - cos φ ^ 2) + (1 - cos φ ^ 2) ^ 2 + (600 * (utmEP2 * cos φ ^ 2) - 330 * utmEP2) * cos φ ^ 4))) := by
  have hs : sin φ ^ 2 = 1 - cos φ ^ 2 := by linarith [sin_sq_add_cos_sq φ]
  have h4 : sin φ ^ 4 = (1 - cos φ ^ 2) ^ 2 := by rw [← hs]; ring
  unfold utmNorthing
  simp only [div_pow, hs, h4]
  field_simp
  ring

/-- the factor of the easting is almost 1 -/
theorem eastFactor {u w e : ℝ} (hu0 : 0 ≤ u) (hu1 : u ≤ 1) (hw0 : 0 ≤ w) (hw1 : w ≤ 12 / 1000) (he0 : 0 ≤ e) (he1 : e ≤ 68 / 10000) :
    |w / 6 * (2 * u - 1 + e * u ^ 2) + w ^ 2 / 120 * (5 * u ^ 2 - 18 * u * (1 - u) + (1 - u) ^ 2 + (72 * (e * u) - 58 * e) * u ^ 2)| ≤ 1 / 100 := by
  have u2 : 0 ≤ u ^ 2 ∧ u ^ 2 ≤ 1 := ⟨sq_nonneg _, by nlinarith⟩
  have eu : 0 ≤ e * u ∧ e * u ≤ 68 / 10000 := ⟨mul_nonneg he0 hu0, by nlinarith⟩
  have eu2 : 0 ≤ e * u ^ 2 ∧ e * u ^ 2 ≤ 68 / 10000 := ⟨mul_nonneg he0 u2.1, by nlinarith⟩
  have hA : |2 * u - 1 + e * u ^ 2| ≤ 2 := abs_le.2 ⟨by linarith, by linarith⟩
  have hk : |(72 * (e * u) - 58 * e) * u ^ 2| ≤ 1 := by
    rw [abs_mul]
    have : |72 * (e * u) - 58 * e| ≤ 1 := abs_le.2 ⟨by linarith, by linarith⟩
    rw [abs_of_nonneg u2.1]
    nlinarith [abs_nonneg (72 * (e * u) - 58 * e)]
  have hB : |5 * u ^ 2 - 18 * u * (1 - u) + (1 - u) ^ 2 + (72 * (e * u) - 58 * e) * u ^ 2| ≤ 30 := by
    obtain ⟨k1, k2⟩ := abs_le.1 hk
    exact abs_le.2 ⟨by nlinarith, by nlinarith⟩
  have hw2 : 0 ≤ w ^ 2 ∧ w ^ 2 ≤ 1 / 1000 := ⟨sq_nonneg _, by nlinarith⟩
  refine (abs_add_le _ _).trans ?_
  rw [abs_mul, abs_mul, abs_of_nonneg (by linarith : 0 ≤ w / 6), abs_of_nonneg (by linarith [hw2.1] : 0 ≤ w ^ 2 / 120)]
  have h1 : w / 6 * |2 * u - 1 + e * u ^ 2| ≤ 12 / 1000 / 6 * 2 := mul_le_mul (by linarith) hA (abs_nonneg _) (by norm_num)
  have h2 : w ^ 2 / 120 * |5 * u ^ 2 - 18 * u * (1 - u) + (1 - u) ^ 2 + (72 * (e * u) - 58 * e) * u ^ 2| ≤ 1 / 1000 / 120 * 30 :=
    mul_le_mul (by linarith [hw2.2]) hB (abs_nonneg _) (by norm_num)
  linarith

/-- the factor of the northing is almost 1/2 -/
theorem northFactor {u w e : ℝ} (hu0 : 0 ≤ u) (hu1 : u ≤ 1) (hw0 : 0 ≤ w) (hw1 : w ≤ 12 / 1000) (he0 : 0 ≤ e) (he1 : e ≤ 68 / 10000) :
    |w / 24 * (5 * u - (1 - u) + (9 * (e * u) + 4 * (e * u) ^ 2) * u) +
      w ^ 2 / 720 * (61 * u ^ 2 - 58 * u * (1 - u) + (1 - u) ^ 2 + (600 * (e * u) - 330 * e) * u ^ 2)| ≤ 1 / 100 := by
  have u2 : 0 ≤ u ^ 2 ∧ u ^ 2 ≤ 1 := ⟨sq_nonneg _, by nlinarith⟩
  have eu : 0 ≤ e * u ∧ e * u ≤ 68 / 10000 := ⟨mul_nonneg he0 hu0, by nlinarith⟩
  have eu2 : 0 ≤ (e * u) ^ 2 ∧ (e * u) ^ 2 ≤ 1 / 100 := ⟨sq_nonneg _, by nlinarith⟩
  have hl : 0 ≤ (9 * (e * u) + 4 * (e * u) ^ 2) * u ∧ (9 * (e * u) + 4 * (e * u) ^ 2) * u ≤ 1 := ⟨mul_nonneg (by linarith) hu0, by nlinarith⟩
  have hA : |5 * u - (1 - u) + (9 * (e * u) + 4 * (e * u) ^ 2) * u| ≤ 8 := abs_le.2 ⟨by linarith, by linarith⟩
  have hk : |(600 * (e * u) - 330 * e) * u ^ 2| ≤ 5 := by
    rw [abs_mul]
    have : |600 * (e * u) - 330 * e| ≤ 5 := abs_le.2 ⟨by linarith, by linarith⟩
    rw [abs_of_nonneg u2.1]
    nlinarith [abs_nonneg (600 * (e * u) - 330 * e)]
  have hB : |61 * u ^ 2 - 58 * u * (1 - u) + (1 - u) ^ 2 + (600 * (e * u) - 330 * e) * u ^ 2| ≤ 130 := by
    obtain ⟨k1, k2⟩ := abs_le.1 hk
    exact abs_le.2 ⟨by nlinarith, by nlinarith⟩
  have hw2 : 0 ≤ w ^ 2 ∧ w ^ 2 ≤ 1 / 1000 := ⟨sq_nonneg _, by nlinarith⟩
  refine (abs_add_le _ _).trans ?_
  rw [abs_mul, abs_mul, abs_of_nonneg (by linarith : 0 ≤ w / 24), abs_of_nonneg (by linarith [hw2.1] : 0 ≤ w ^ 2 / 720)]
  have h1 : w / 24 * |5 * u - (1 - u) + (9 * (e * u) + 4 * (e * u) ^ 2) * u| ≤ 12 / 1000 / 24 * 8 := mul_le_mul (by linarith) hA (abs_nonneg _) (by norm_num)
  have h2 : w ^ 2 / 720 * |61 * u ^ 2 - 58 * u * (1 - u) + (1 - u) ^ 2 + (600 * (e * u) - 330 * e) * u ^ 2| ≤ 1 / 1000 / 720 * 130 :=
    mul_le_mul (by linarith [hw2.2]) hB (abs_nonneg _) (by norm_num)
  linarith

/-- a point at most 6 degrees from the central meridian lies on its side of it; the easting is between 100,000 and 900,000 if it is near -/
theorem utmEasting_bounds {φ δ : ℝ} (hc : 0 < cos φ) (hδ : δ ^ 2 ≤ 12 / 1000) :
    (500000 < utmEasting φ δ ↔ 0 < δ) ∧ (cos φ * |δ| ≤ 6 / 100 → 108000 < utmEasting φ δ ∧ utmEasting φ δ < 892000) := by
  rw [utmEasting_eq hc.ne']
  have hE := utmEP2_bounds
  have hN := utmN_bounds φ
  have hf := eastFactor (u := cos φ ^ 2) (w := δ ^ 2) (e := utmEP2) (sq_nonneg _) (cos_sq_le_one φ) (sq_nonneg _) hδ hE.1.le hE.2.le
  rw [← pow_mul, ← pow_mul] at hf
  norm_num only at hf
  rw [add_assoc (1 : ℝ)]
  set X := δ ^ 2 / 6 * (2 * cos φ ^ 2 - 1 + utmEP2 * cos φ ^ 4) +
    δ ^ 4 / 120 * (5 * cos φ ^ 4 - 18 * cos φ ^ 2 * (1 - cos φ ^ 2) + (1 - cos φ ^ 2) ^ 2 + (72 * (utmEP2 * cos φ ^ 2) - 58 * utmEP2) * cos φ ^ 4) with hX
  have hX' : |X| ≤ 1 / 100 := hf
  obtain ⟨x1, x2⟩ := abs_le.1 hX'
  have hK : utmK0 = 9996 / 10000 := rfl
  have hKN : 0 < utmK0 * utmN φ := by rw [hK]; exact mul_pos (by norm_num) (by linarith)
  have hfac : 0 < utmK0 * utmN φ * cos φ * (1 + X) := mul_pos (mul_pos hKN hc) (by linarith)
  have e : utmK0 * utmN φ * (cos φ * δ) * (1 + X) = utmK0 * utmN φ * cos φ * (1 + X) * δ := by ring
  constructor
  · rw [e]
    constructor
    · intro h
      have : 0 < utmK0 * utmN φ * cos φ * (1 + X) * δ := by linarith
      exact (pos_iff_pos_of_mul_pos this).1 hfac
    · intro h
      linarith [mul_pos hfac h]
  · intro h
    have habs : |utmK0 * utmN φ * (cos φ * δ) * (1 + X)| ≤ 6443000 * (6 / 100) * (101 / 100) := by
      rw [abs_mul, abs_mul, abs_of_pos hKN, abs_of_pos (by linarith : 0 < 1 + X), abs_mul, abs_of_pos hc]
      refine mul_le_mul (mul_le_mul (by rw [hK]; linarith) h (by positivity) (by norm_num)) (by linarith) (by linarith) (by norm_num)
    obtain ⟨g1, g2⟩ := abs_le.1 habs
    constructor <;> linarith

theorem utmNorthing_bounds {φ δ : ℝ} (h0 : 0 ≤ φ) (h1 : φ ≤ 147 / 100) (hc : 0 < cos φ) (hδ : δ ^ 2 ≤ 12 / 1000) :
    0 ≤ utmNorthing φ δ ∧ utmNorthing φ δ ≤ 10000000 := by
  rw [utmNorthing_eq hc.ne']
  have hE := utmEP2_bounds
  have hN := utmN_bounds φ
  have hf := northFactor (u := cos φ ^ 2) (w := δ ^ 2) (e := utmEP2) (sq_nonneg _) (cos_sq_le_one φ) (sq_nonneg _) hδ hE.1.le hE.2.le
  rw [← pow_mul, ← pow_mul] at hf
  norm_num only at hf
  rw [add_assoc (1 / 2 : ℝ)]
  set X := δ ^ 2 / 24 * (5 * cos φ ^ 2 - (1 - cos φ ^ 2) + (9 * (utmEP2 * cos φ ^ 2) + 4 * (utmEP2 * cos φ ^ 2) ^ 2) * cos φ ^ 2) +
      δ ^ 4 / 720 * (61 * cos φ ^ 4 - 58 * cos φ ^ 2 * (1 - cos φ ^ 2) + (1 - cos φ ^ 2) ^ 2 + (600 * (utmEP2 * cos φ ^ 2) - 330 * utmEP2) * cos φ ^ 4) with hX
  have hX' : |X| ≤ 1 / 100 := hf
  obtain ⟨x1, x2⟩ := abs_le.1 hX'
  have hs : 0 ≤ sin φ := sin_nonneg_of_nonneg_of_le_pi h0 (by linarith [pi_gt_three])
  have hm0 : 0 ≤ utmMeridian φ := by
    rw [← utmMeridian_zero]
    exact utmMeridian_strictMono.monotone h0
  have hm1 := utmMeridian_le h0 h1
  have hsc0 : 0 ≤ sin φ * cos φ * δ ^ 2 := by positivity
  have hsc1 : sin φ * cos φ * δ ^ 2 ≤ 1 * 1 * (12 / 1000) :=
    mul_le_mul (mul_le_mul (sin_le_one φ) (cos_le_one φ) hc.le zero_le_one) hδ (sq_nonneg _) (by norm_num)
  have ht0 : 0 ≤ utmN φ * (sin φ * cos φ * δ ^ 2) * (1 / 2 + X) := mul_nonneg (mul_nonneg (by linarith) hsc0) (by linarith)
  have ht1 : utmN φ * (sin φ * cos φ * δ ^ 2) * (1 / 2 + X) ≤ 6443000 * (1 * 1 * (12 / 1000)) * (51 / 100) :=
    mul_le_mul (mul_le_mul hN.2.le hsc1 hsc0 (by norm_num)) (by linarith) (by linarith) (by norm_num)
  have hK : utmK0 = 9996 / 10000 := rfl
  rw [hK]
  constructor <;> linarith

/-! ### Angles -/

theorem radians_sub (x y : ℝ) : radians x - radians y = radians (x - y) := by unfold radians; ring

theorem radians_neg (x : ℝ) : radians (-x) = -radians x := by unfold radians; ring

theorem cos_radians_pos {x : ℝ} (h0 : -84 ≤ x) (h1 : x ≤ 84) : 0 < cos (radians x) := by
  have := pi_pos
  unfold radians
  exact cos_pos_of_mem_Ioo ⟨by nlinarith, by nlinarith⟩

theorem radians_le {x : ℝ} (h1 : x ≤ 84) : radians x ≤ 147 / 100 := by
  have := pi_lt_d2
  have := pi_pos
  unfold radians
  nlinarith

theorem radians_abs_le {x k : ℝ} (h : |x| ≤ k) : |radians x| ≤ k * (31416 / 10000 / 180) := by
  have h1 := pi_lt_d4
  have h2 := pi_pos
  unfold radians
  rw [abs_mul, abs_of_pos (div_pos h2 (by norm_num))]
  exact mul_le_mul h (by linarith) (div_pos h2 (by norm_num)).le ((abs_nonneg x).trans h)

theorem radians_sq_le {x : ℝ} (h : |x| ≤ 6) : radians x ^ 2 ≤ 12 / 1000 := by
  have := radians_abs_le h
  rw [← sq_abs]
  nlinarith [abs_nonneg (radians x)]

theorem cos_far_north {x : ℝ} (h0 : 56 ≤ x) (h1 : x ≤ 84) : cos (radians x) ≤ 571 / 1000 := by
  have hp := pi_gt_d2
  have h : (976 / 1000 : ℝ) ≤ radians x := by unfold radians; nlinarith
  refine (cos_le_cos_of_nonneg_of_le_pi (by norm_num) ((radians_le h1).trans (by linarith)) h).trans ?_
  have := (abs_le.1 (Real.cos_bound (x := 976 / 1000) (by rw [abs_of_pos] <;> norm_num))).2
  rw [abs_of_pos (by norm_num : (0 : ℝ) < 976 / 1000)] at this
  norm_num at this ⊢
  linarith

/-- how far a point is from the central meridian of its zone -/
theorem zone_near (latitude longitude : ℚ) (hl : -80 ≤ latitude) (hl' : latitude ≤ 84) (h0 : -180 ≤ longitude) (h1 : longitude < 180) :
    |(longitude : ℝ) - ((zoneNumberToCentralLongitude (latlonToZoneNumber latitude longitude) : ℤ) : ℝ)| ≤ 6 ∧
    cos (radians (latitude : ℝ)) * |radians ((longitude : ℝ) - ((zoneNumberToCentralLongitude (latlonToZoneNumber latitude longitude) : ℤ) : ℝ))| ≤ 6 / 100 := by
  obtain ⟨-, -, h6, h3⟩ := C54_zone_number latitude longitude h0 h1
  have h6' : |(longitude : ℝ) - ((zoneNumberToCentralLongitude (latlonToZoneNumber latitude longitude) : ℤ) : ℝ)| ≤ 6 := by exact_mod_cast h6
  refine ⟨h6', ?_⟩
  generalize zoneNumberToCentralLongitude (latlonToZoneNumber latitude longitude) = c at *
  by_cases hfar : (56 : ℚ) ≤ latitude
  · have hc := cos_far_north (x := (latitude : ℝ)) (by exact_mod_cast hfar) (by exact_mod_cast hl')
    have := mul_le_mul hc (radians_abs_le h6') (abs_nonneg _) (by norm_num)
    refine this.trans (by norm_num)
  · obtain ⟨a, b⟩ := h3 (fun h => hfar h.1) (fun h => hfar (by linarith [h.1]))
    have h3' : |(longitude : ℝ) - (c : ℝ)| ≤ 3 := by
      have : |longitude - (c : ℚ)| ≤ 3 := abs_le.2 ⟨by linarith, by linarith⟩
      exact_mod_cast this
    have := mul_le_mul (cos_le_one (radians (latitude : ℝ))) (radians_abs_le h3') (abs_nonneg _) (by norm_num)
    exact this.trans (by norm_num)

theorem zone_upper : ∀ c ∈ zoneLetters, c.toUpper = c := by decide +kernel

theorem zoneLetter_upper {latitude : ℚ} {c : Char} (h : latitudeToZoneLetter latitude = .ok (some c)) : c.toUpper = c := by
  unfold latitudeToZoneLetter at h
  split_ifs at h
  · split at h
    · rename_i c' hc
      cases h
      exact zone_upper c (List.mem_of_getElem? hc)
    · cases h
  · cases h

/-! ### `from_latlon` -/

/-- the coordinates of a point in a given zone -/
noncomputable def utmPoint (latitude longitude : ℚ) (zone : ℤ) : ℝ × ℝ :=
  (utmEasting (radians latitude) (radians ((longitude : ℝ) - ((zoneNumberToCentralLongitude zone : ℤ) : ℝ))),
    if latitude < 0 then utmNorthing (radians latitude) (radians ((longitude : ℝ) - ((zoneNumberToCentralLongitude zone : ℤ) : ℝ))) + 10000000
    else utmNorthing (radians latitude) (radians ((longitude : ℝ) - ((zoneNumberToCentralLongitude zone : ℤ) : ℝ))))

theorem fromLatlon_forced {latitude longitude : ℚ} (h : -80 ≤ latitude ∧ latitude ≤ 84) (h' : -180 ≤ longitude ∧ longitude ≤ 180) {zone : ℤ} (hz : 1 ≤ zone ∧ zone ≤ 60) :
    ∃ c, fromLatlon latitude longitude (some zone) none = .ok ((utmPoint latitude longitude zone).1, (utmPoint latitude longitude zone).2, zone, some c) ∧
      latitudeToZoneLetter latitude = .ok (some c) := by
  obtain ⟨c, hc, -⟩ := (C54_zone_letter latitude).1 h
  refine ⟨c, ?_, hc⟩
  unfold fromLatlon utmPoint
  rw [if_neg (not_not.2 h), if_neg (not_not.2 h')]
  have hv : checkValidZone zone none = .ok () := by
    unfold checkValidZone
    rw [if_neg (not_not.2 hz)]
  simp only [Option.map_none, hv, hc, radians_sub, Option.getD_some]
  rfl

theorem fromLatlon_free {latitude longitude : ℚ} (h : -80 ≤ latitude ∧ latitude ≤ 84) (h' : -180 ≤ longitude ∧ longitude ≤ 180) :
    ∃ c, fromLatlon latitude longitude none none = .ok ((utmPoint latitude longitude (latlonToZoneNumber latitude longitude)).1,
      (utmPoint latitude longitude (latlonToZoneNumber latitude longitude)).2, latlonToZoneNumber latitude longitude, some c) ∧ latitudeToZoneLetter latitude = .ok (some c) := by
  obtain ⟨c, hc, -⟩ := (C54_zone_letter latitude).1 h
  refine ⟨c, ?_, hc⟩
  unfold fromLatlon utmPoint
  rw [if_neg (not_not.2 h), if_neg (not_not.2 h')]
  simp only [hc, radians_sub, Option.getD_none]
  rfl

/-- **C120** (east and west) In every zone, points at the same distance east and west of the central meridian have the same northing, and eastings that add up to 1,000,000; so the
points on the central meridian have easting 500,000. -/
theorem C120_east_west {latitude x : ℚ} (h : -80 ≤ latitude ∧ latitude ≤ 84) {zone : ℤ} (hz : 1 ≤ zone ∧ zone ≤ 60)
    (hp : -180 ≤ zoneNumberToCentralLongitude zone + x ∧ zoneNumberToCentralLongitude zone + x ≤ 180)
    (hm : -180 ≤ zoneNumberToCentralLongitude zone - x ∧ zoneNumberToCentralLongitude zone - x ≤ 180) :
    ∃ e n c, fromLatlon latitude (zoneNumberToCentralLongitude zone + x) (some zone) none = .ok (e, n, zone, c) ∧
      fromLatlon latitude (zoneNumberToCentralLongitude zone - x) (some zone) none = .ok (1000000 - e, n, zone, c) := by
  obtain ⟨c, h1, hc⟩ := fromLatlon_forced h hp hz
  obtain ⟨c', h2, hc'⟩ := fromLatlon_forced h hm hz
  rw [hc] at hc'
  cases hc'
  refine ⟨_, _, _, h1, ?_⟩
  rw [h2]
  have e1 : (((zoneNumberToCentralLongitude zone - x : ℚ) : ℝ) - ((zoneNumberToCentralLongitude zone : ℤ) : ℝ)) = -(x : ℝ) := by push_cast; ring
  have e2 : (((zoneNumberToCentralLongitude zone + x : ℚ) : ℝ) - ((zoneNumberToCentralLongitude zone : ℤ) : ℝ)) = x := by push_cast; ring
  unfold utmPoint
  simp only [e1, e2, radians_neg, utmEasting_mirror, utmNorthing_mirror]

/-- **C120** (north and south) Points at the same distance north and south of the equator have the same easting, and northings that add up to 10,000,000. -/
theorem C120_north_south {latitude longitude : ℚ} (h : 0 < latitude ∧ latitude ≤ 80) (h' : -180 ≤ longitude ∧ longitude ≤ 180) {zone : ℤ} (hz : 1 ≤ zone ∧ zone ≤ 60) :
    ∃ e n c c', fromLatlon latitude longitude (some zone) none = .ok (e, n, zone, c) ∧ fromLatlon (-latitude) longitude (some zone) none = .ok (e, 10000000 - n, zone, c') := by
  obtain ⟨c, h1, -⟩ := fromLatlon_forced (latitude := latitude) ⟨by linarith [h.1], by linarith [h.2]⟩ h' hz
  obtain ⟨c', h2, -⟩ := fromLatlon_forced (latitude := -latitude) ⟨by linarith [h.2], by linarith [h.1]⟩ h' hz
  refine ⟨_, _, _, some c', h1, ?_⟩
  rw [h2]
  unfold utmPoint
  have hn : ¬ latitude < 0 := by linarith [h.1]
  have hn' : -latitude < 0 := by linarith [h.1]
  simp only [if_neg hn, if_pos hn', Rat.cast_neg, radians_neg, utmEasting_south, utmNorthing_south]
  ring_nf

/-- **C120** (which side) The easting is above 500,000 exactly for points east of the central meridian, if they are at most 6 degrees from it. -/
theorem C120_side {latitude longitude : ℚ} (h : -80 ≤ latitude ∧ latitude ≤ 84) (h' : -180 ≤ longitude ∧ longitude ≤ 180) {zone : ℤ} (hz : 1 ≤ zone ∧ zone ≤ 60)
    (hnear : |longitude - zoneNumberToCentralLongitude zone| ≤ 6) :
    ∃ e n c, fromLatlon latitude longitude (some zone) none = .ok (e, n, zone, c) ∧ (500000 < e ↔ (zoneNumberToCentralLongitude zone : ℚ) < longitude) := by
  obtain ⟨c, h1, -⟩ := fromLatlon_forced h h' hz
  refine ⟨_, _, _, h1, ?_⟩
  have hn : |(longitude : ℝ) - ((zoneNumberToCentralLongitude zone : ℤ) : ℝ)| ≤ 6 := by exact_mod_cast hnear
  unfold utmPoint
  simp only
  rw [(utmEasting_bounds (cos_radians_pos (by have : ((-80 : ℚ) : ℝ) ≤ latitude := by exact_mod_cast h.1
                                              push_cast at this; linarith) (by exact_mod_cast h.2)) (radians_sq_le hn)).1]
  unfold radians
  rw [mul_pos_iff_of_pos_right (div_pos pi_pos (by norm_num)), sub_pos]
  exact_mod_cast Iff.rfl

/-- **C120** (further north) On the central meridian of a zone, in each hemisphere, the northing grows with the latitude. -/
theorem C120_further_north {lat lat' : ℚ} (h : -80 ≤ lat) (hlt : lat < lat') (h' : lat' ≤ 84) (hsame : 0 ≤ lat ∨ lat' < 0) {zone : ℤ} (hz : 1 ≤ zone ∧ zone ≤ 60) :
    ∃ n n' c c', fromLatlon lat (zoneNumberToCentralLongitude zone) (some zone) none = .ok (500000, n, zone, c) ∧
      fromLatlon lat' (zoneNumberToCentralLongitude zone) (some zone) none = .ok (500000, n', zone, c') ∧ n < n' := by
  have hc : (-180 : ℚ) ≤ (zoneNumberToCentralLongitude zone : ℤ) ∧ ((zoneNumberToCentralLongitude zone : ℤ) : ℚ) ≤ 180 := by
    unfold zoneNumberToCentralLongitude
    constructor
    · exact_mod_cast (by omega : (-180 : ℤ) ≤ (zone - 1) * 6 - 180 + 3)
    · exact_mod_cast (by omega : (zone - 1) * 6 - 180 + 3 ≤ (180 : ℤ))
  obtain ⟨c, h1, -⟩ := fromLatlon_forced (latitude := lat) ⟨h, by linarith⟩ hc hz
  obtain ⟨c', h2, -⟩ := fromLatlon_forced (latitude := lat') ⟨by linarith, h'⟩ hc hz
  have e0 : ∀ φ, utmEasting φ 0 = 500000 := fun φ => by unfold utmEasting; simp
  have n0 : ∀ φ, utmNorthing φ 0 = utmK0 * utmMeridian φ := fun φ => by unfold utmNorthing; simp
  have r0 : radians 0 = 0 := by unfold radians; simp
  have hp : ∀ l : ℚ, utmPoint l (zoneNumberToCentralLongitude zone : ℤ) zone = (500000, if l < 0 then utmK0 * utmMeridian (radians l) + 10000000 else utmK0 * utmMeridian (radians l)) := by
    intro l
    unfold utmPoint
    simp [r0, e0, n0]
  rw [hp] at h1 h2
  refine ⟨_, _, _, _, h1, h2, ?_⟩
  have hlt' : utmK0 * utmMeridian (radians lat) < utmK0 * utmMeridian (radians lat') := by
    refine mul_lt_mul_of_pos_left (utmMeridian_strictMono ?_) (by unfold utmK0; norm_num)
    unfold radians
    exact mul_lt_mul_of_pos_right (by exact_mod_cast hlt) (div_pos pi_pos (by norm_num))
  simp only
  rcases hsame with hs | hs
  · rw [if_neg (by linarith), if_neg (by linarith)]; exact hlt'
  · rw [if_pos (by linarith), if_pos hs]; linarith

/-! ### `to_latlon` -/

/-- **C120** (what `from_latlon` returns is accepted; missing: longitude 180, where it is not) For every point below longitude 180 - also in the wide zones of Norway and Svalbard - `to_latlon` accepts, with all its checks on,
the easting, northing, zone number and zone letter that `from_latlon` returns; it computes with `x = easting - 500000` and the northing counted from the equator. -/
theorem C120_accepted_partial (latitude longitude : ℚ) (h : -80 ≤ latitude ∧ latitude ≤ 84) (h' : -180 ≤ longitude ∧ longitude < 180) :
    ∃ e n zone c, fromLatlon latitude longitude none none = .ok (e, n, zone, some c) ∧ 108000 < e ∧ e < 892000 ∧ 0 ≤ n ∧ n ≤ 10000000 ∧
      toLatlon e n zone (some c) none true =
        .ok (degrees (utmLatitude (e - 500000) (if 0 ≤ latitude then n else n - 10000000)),
          degrees (utmLongitude (e - 500000) (if 0 ≤ latitude then n else n - 10000000)) + ((zoneNumberToCentralLongitude zone : ℤ) : ℝ)) := by
  obtain ⟨c, h1, hc⟩ := fromLatlon_free h ⟨h'.1, h'.2.le⟩
  obtain ⟨c', hc', hN, -, hv⟩ := (C54_zone_letter latitude).1 h
  rw [hc] at hc'
  cases hc'
  obtain ⟨z1, z2, -⟩ := C54_zone_number latitude longitude h'.1 h'.2
  obtain ⟨k6, k⟩ := zone_near latitude longitude h.1 h.2 h'.1 h'.2
  have hlow : (-80 : ℝ) ≤ latitude := by exact_mod_cast h.1
  have hhigh : (latitude : ℝ) ≤ 84 := by exact_mod_cast h.2
  have hcos := cos_radians_pos (x := (latitude : ℝ)) (by linarith) hhigh
  have hE := (utmEasting_bounds hcos (radians_sq_le k6)).2 k
  have hn : 0 ≤ (utmPoint latitude longitude (latlonToZoneNumber latitude longitude)).2 ∧ (utmPoint latitude longitude (latlonToZoneNumber latitude longitude)).2 ≤ 10000000 := by
    unfold utmPoint
    simp only
    by_cases hl : latitude < 0
    · rw [if_pos hl]
      have hl' : (latitude : ℝ) < 0 := by exact_mod_cast hl
      have := utmNorthing_bounds (φ := radians (-(latitude : ℝ))) (δ := radians ((longitude : ℝ) -
        ((zoneNumberToCentralLongitude (latlonToZoneNumber latitude longitude) : ℤ) : ℝ))) (by unfold radians; exact mul_nonneg (by linarith) (div_pos pi_pos (by norm_num)).le)
        (radians_le (by linarith)) (cos_radians_pos (by linarith) (by linarith)) (radians_sq_le k6)
      rw [radians_neg, utmNorthing_south] at this
      constructor <;> linarith [this.1, this.2]
    · rw [if_neg hl]
      have hl' : (0 : ℝ) ≤ latitude := by exact_mod_cast not_lt.1 hl
      exact utmNorthing_bounds (by unfold radians; exact mul_nonneg hl' (div_pos pi_pos (by norm_num)).le) (radians_le hhigh) hcos (radians_sq_le k6)
  refine ⟨_, _, _, c, h1, hE.1, hE.2, hn.1, hn.2, ?_⟩
  have hE' : 108000 < (utmPoint latitude longitude (latlonToZoneNumber latitude longitude)).1 ∧ (utmPoint latitude longitude (latlonToZoneNumber latitude longitude)).1 < 892000 := hE
  generalize (utmPoint latitude longitude (latlonToZoneNumber latitude longitude)).1 = e at *
  generalize (utmPoint latitude longitude (latlonToZoneNumber latitude longitude)).2 = n at *
  unfold toLatlon
  rw [if_neg (by simp), if_neg (by simp), if_neg (fun hh => hh.2 ⟨by linarith [hE'.1], by simp only [if_true]; linarith [hE'.2]⟩), if_neg (fun hh => hh.2 ⟨hn.1, by simpa using hn.2⟩)]
  simp only [Option.map_some, zoneLetter_upper hc, hv _ z1 z2, hN]
  by_cases hl : 0 ≤ latitude
  · simp only [hl, decide_true, if_true]; rfl
  · simp only [hl, decide_false, if_false]; rfl

theorem toLatlon_free (e n : ℝ) {zone : ℤ} (hz : 1 ≤ zone ∧ zone ≤ 60) (north : Bool) :
    toLatlon e n zone none (some north) false =
      .ok (degrees (utmLatitude (e - 500000) (if north then n else n - 10000000)),
        degrees (utmLongitude (e - 500000) (if north then n else n - 10000000)) + ((zoneNumberToCentralLongitude zone : ℤ) : ℝ)) := by
  unfold toLatlon
  rw [if_neg (by simp), if_neg (by simp), if_neg (by simp), if_neg (by simp)]
  have hv : checkValidZone zone none = .ok () := by
    unfold checkValidZone
    rw [if_neg (not_not.2 hz)]
  simp only [Option.map_none, hv, Option.getD_some]
  rfl

/-- **C120** (`to_latlon`, east and west) Points at the same distance east and west of the central meridian have the same latitude and mirrored longitudes. -/
theorem C120_to_east_west (x n : ℝ) {zone : ℤ} (hz : 1 ≤ zone ∧ zone ≤ 60) (north : Bool) :
    ∃ lat l, toLatlon (500000 + x) n zone none (some north) false = .ok (lat, l + ((zoneNumberToCentralLongitude zone : ℤ) : ℝ)) ∧
      toLatlon (500000 - x) n zone none (some north) false = .ok (lat, -l + ((zoneNumberToCentralLongitude zone : ℤ) : ℝ)) := by
  refine ⟨_, _, toLatlon_free _ _ hz north, ?_⟩
  rw [toLatlon_free _ _ hz north]
  have e1 : 500000 + x - 500000 = x := by ring
  have e2 : 500000 - x - 500000 = -x := by ring
  rw [e1, e2, utmLatitude_mirror, utmLongitude_mirror]
  unfold degrees
  rw [neg_mul]

theorem degrees_pos {x : ℝ} (h : 0 < x) : 0 < degrees x := mul_pos h (div_pos (by norm_num) pi_pos)

/-- **C120** (violation: `to_latlon`, north and south) Points at the same distance north and south of the equator have the same longitude, but mirrored latitudes only on the central
meridian; elsewhere both latitudes are too far north. -/
theorem C120_to_south_violation (x n : ℝ) {zone : ℤ} (hz : 1 ≤ zone ∧ zone ≤ 60) :
    ∃ lat lat' lon, toLatlon (500000 + x) n zone none (some true) false = .ok (lat, lon) ∧
      toLatlon (500000 + x) (10000000 - n) zone none (some false) false = .ok (lat', lon) ∧ (x = 0 → lat' = -lat) ∧ (x ≠ 0 → -lat < lat') := by
  have e1 : 500000 + x - 500000 = x := by ring
  have e2 : (10000000 : ℝ) - n - 10000000 = -n := by ring
  refine ⟨_, degrees (utmLatitude x (-n)), _, toLatlon_free _ _ hz true, ?_, ?_⟩
  · rw [toLatlon_free _ _ hz false]
    simp only [e1, e2, if_true, Bool.false_eq_true, if_false, utmLongitude_south]
  · simp only [e1, if_true, utmLatitude_south]
    constructor
    · intro hx
      have : utmSixth x n = 0 := by unfold utmSixth; rw [hx]; simp
      rw [this]
      unfold degrees
      ring
    · intro hx
      have := degrees_pos (utmSixth_pos hx n)
      unfold degrees at this ⊢
      linarith

theorem utmSixth_small {x : ℝ} (hx : |x| ≤ 392000) : degrees (utmSixth x 0) < 1 / 1000000 := by
  have hfoot : utmFoot 0 = 0 := by unfold utmFoot; simp
  obtain ⟨h1, h2⟩ := utmE1_bounds
  have hE := utmEP2_bounds
  have hN := utmN_bounds 0
  have hK : utmK0 = 9996 / 10000 := rfl
  have hNK : 6375000 ≤ utmN 0 * utmK0 := by rw [hK]; linarith
  have hd : |x / (utmN 0 * utmK0)| ≤ 62 / 1000 := by
    rw [abs_div, abs_of_pos (by linarith : 0 < utmN 0 * utmK0), div_le_iff₀ (by linarith)]
    linarith
  have hd6 : (x / (utmN 0 * utmK0)) ^ 6 ≤ (62 / 1000) ^ 6 := by
    rw [← Even.pow_abs (by decide : Even 6)]
    exact pow_le_pow_left₀ (abs_nonneg _) hd 6
  have hd0 : 0 ≤ (x / (utmN 0 * utmK0)) ^ 6 := by
    rw [← Even.pow_abs (by decide : Even 6)]
    positivity
  have hpi : 180 / π ≤ 60 := by
    rw [div_le_iff₀ pi_pos]
    linarith [pi_gt_three]
  have hs : utmSixth x 0 ≤ (62 / 1000) ^ 6 / 720 * 63 := by
    unfold utmSixth
    simp only [hfoot, sin_zero, cos_zero, zero_div]
    refine mul_le_mul (by linarith) ?_ ?_ (by norm_num)
    · nlinarith [sq_nonneg (utmE1 * 1 ^ 2)]
    · nlinarith
  have hs0 : 0 ≤ utmSixth x 0 := by
    by_cases h : x = 0
    · rw [h]
      unfold utmSixth
      simp
    · exact (utmSixth_pos h 0).le
  unfold degrees
  refine lt_of_le_of_lt (mul_le_mul hs hpi (div_pos (by norm_num) pi_pos).le (by norm_num)) (by norm_num)

/-- **C120** (violation: there and back) A point on the equator that is not on the central meridian of its zone has northing 0, and `to_latlon` puts it
north of the equator - by less than a millionth of a degree. -/
theorem C120_equator_violation (longitude : ℚ) (h' : -180 ≤ longitude ∧ longitude < 180)
    (hoff : longitude ≠ zoneNumberToCentralLongitude (latlonToZoneNumber 0 longitude)) :
    ∃ e zone c lat lon, fromLatlon 0 longitude none none = .ok (e, 0, zone, some c) ∧ toLatlon e 0 zone (some c) none true = .ok (lat, lon) ∧ 0 < lat ∧ lat < 1 / 1000000 := by
  obtain ⟨c, h1, -⟩ := fromLatlon_free (latitude := 0) (by norm_num) ⟨h'.1, h'.2.le⟩
  obtain ⟨e, n, zone, c', g1, b1, b2, -, -, g2⟩ := C120_accepted_partial 0 longitude (by norm_num) h'
  rw [h1] at g1
  simp only [Except.ok.injEq, Prod.mk.injEq, Option.some.injEq] at g1
  obtain ⟨rfl, rfl, rfl, rfl⟩ := g1
  have hr : radians ((0 : ℚ) : ℝ) = 0 := by unfold radians; simp
  have hn : (utmPoint 0 longitude (latlonToZoneNumber 0 longitude)).2 = 0 := by
    unfold utmPoint utmNorthing
    simp only [hr, sin_zero, zero_div, mul_zero, zero_mul, add_zero, utmMeridian_zero, lt_irrefl, if_false]
  rw [hn] at h1 g2
  have hfoot : utmFoot 0 = 0 := by unfold utmFoot; simp
  have hlat : ∀ x, utmLatitude x 0 = utmSixth x 0 := fun x => by unfold utmLatitude utmSixth; simp [hfoot]
  refine ⟨_, _, _, _, _, h1, g2, degrees_pos ?_, ?_⟩
  swap
  · simp only [le_refl, if_true]
    rw [hlat]
    exact utmSixth_small (abs_le.2 ⟨by linarith, by linarith⟩)
  simp only [le_refl, if_true]
  rw [hlat]
  refine utmSixth_pos (fun hx => ?_) 0
  have hx' : utmEasting (radians ((0 : ℚ) : ℝ)) (radians ((longitude : ℝ) - ((zoneNumberToCentralLongitude (latlonToZoneNumber 0 longitude) : ℤ) : ℝ))) = 500000 := by
    have : (utmPoint 0 longitude (latlonToZoneNumber 0 longitude)).1 = 500000 := by linarith
    exact this
  obtain ⟨k6, -⟩ := zone_near 0 longitude (by norm_num) (by norm_num) h'.1 h'.2
  have hcos : 0 < cos (radians ((0 : ℚ) : ℝ)) := by rw [hr]; simp
  have hb := (utmEasting_bounds hcos (radians_sq_le k6)).1
  have hb' := (utmEasting_bounds (δ := -radians ((longitude : ℝ) - ((zoneNumberToCentralLongitude (latlonToZoneNumber 0 longitude) : ℤ) : ℝ))) hcos
    (by rw [neg_sq]; exact radians_sq_le k6)).1
  rw [utmEasting_mirror, hx'] at hb'
  rw [hx'] at hb
  have z1 := hb.not.1 (lt_irrefl _)
  have z2 := hb'.not.1 (by norm_num)
  have hz : radians ((longitude : ℝ) - ((zoneNumberToCentralLongitude (latlonToZoneNumber 0 longitude) : ℤ) : ℝ)) = 0 := by linarith
  unfold radians at hz
  rcases mul_eq_zero.1 hz with hz | hz
  · exact hoff (by
      have : (longitude : ℝ) = ((zoneNumberToCentralLongitude (latlonToZoneNumber 0 longitude) : ℤ) : ℝ) := by linarith
      exact_mod_cast this)
  · exact absurd hz (div_pos pi_pos (by norm_num)).ne'

/-- latitudes up to 70 degrees are away from the pole -/
theorem cos_foot {p : ℝ} (h : |degrees p| ≤ 70) : 1 / 3 ≤ cos p := by
  have hp : |p| ≤ π / 2 - 345 / 1000 := by
    have h1 := pi_gt_d2
    unfold degrees at h
    rw [abs_mul, abs_of_pos (div_pos (by norm_num) pi_pos), ← mul_div_assoc, div_le_iff₀ pi_pos] at h
    linarith
  rw [← cos_abs]
  have h2 : cos (π / 2 - 345 / 1000) ≤ cos |p| := cos_le_cos_of_nonneg_of_le_pi (abs_nonneg _) (by linarith [pi_pos]) hp
  rw [cos_pi_div_two_sub] at h2
  have := sin_gt_sub_cube (x := 345 / 1000) (by norm_num)
  norm_num at this
  linarith

theorem tan_foot {p : ℝ} (h : |degrees p| ≤ 70) : (sin p / cos p) ^ 2 ≤ 8 := by
  have hc := cos_foot h
  have hc2 : 1 / 9 ≤ cos p ^ 2 := by nlinarith
  rw [div_pow, div_le_iff₀ (by linarith)]
  linarith [sin_sq_add_cos_sq p]

theorem foot_dist {x : ℝ} (p : ℝ) (hx : |x| ≤ 400000) : (x / (utmN p * utmK0)) ^ 2 ≤ 4 / 1000 := by
  have hN := utmN_bounds p
  have hK : utmK0 = 9996 / 10000 := rfl
  have hNK : 6375000 ≤ utmN p * utmK0 := by rw [hK]; linarith
  have hd : |x / (utmN p * utmK0)| ≤ 63 / 1000 := by
    rw [abs_div, abs_of_pos (by linarith : 0 < utmN p * utmK0), div_le_iff₀ (by linarith)]
    linarith
  rw [← sq_abs]
  nlinarith [abs_nonneg (x / (utmN p * utmK0))]

theorem foot_c (p : ℝ) : 0 ≤ utmE1 * cos p ^ 2 ∧ utmE1 * cos p ^ 2 ≤ 6 / 1000 ∧ (utmE1 * cos p ^ 2) ^ 2 ≤ 1 / 1000 := by
  obtain ⟨h1, h2⟩ := utmE1_bounds
  have h3 : 0 ≤ utmE1 * cos p ^ 2 := mul_nonneg h1.le (sq_nonneg _)
  have h4 : utmE1 * cos p ^ 2 ≤ 6 / 1000 := by nlinarith [cos_sq_le_one p, sq_nonneg (cos p)]
  exact ⟨h3, h4, by nlinarith⟩

theorem falls_core {d t c r e : ℝ} (hd : 0 < d ^ 2) (hw : d ^ 2 ≤ 4 / 1000) (ht : 17 / 1000 ≤ t) (ht2 : t ^ 2 ≤ 8) (c0 : 0 ≤ c) (c1 : c ≤ 6 / 1000) (c2 : c ^ 2 ≤ 1 / 1000)
    (he0 : 0 < e) (he1 : e < 68 / 10000) (hr : 0 < r) (hr1 : r ≤ 1) :
    d ^ 6 / 720 * (61 + 90 * t ^ 2 + 298 * c + 45 * t ^ 4 - 252 * e - 3 * c ^ 2) < (t / r) * (d ^ 2 / 2 - d ^ 4 / 24 * (5 + 3 * t ^ 2 + 10 * c - 4 * c ^ 2 - 9 * e)) := by
  have c20 : 0 ≤ c ^ 2 := sq_nonneg _
  have t0 : 0 ≤ t ^ 2 := sq_nonneg _
  have t4 : t ^ 4 ≤ 8 * 8 := by
    rw [show t ^ 4 = t ^ 2 * t ^ 2 by ring]
    exact mul_le_mul ht2 ht2 t0 (by norm_num)
  have t40 : 0 ≤ t ^ 4 := by positivity
  have hA : d ^ 2 * (49 / 100) ≤ d ^ 2 / 2 - d ^ 4 / 24 * (5 + 3 * t ^ 2 + 10 * c - 4 * c ^ 2 - 9 * e) := by
    have h1 : d ^ 2 / 24 * (5 + 3 * t ^ 2 + 10 * c - 4 * c ^ 2 - 9 * e) ≤ 4 / 1000 / 24 * 30 :=
      mul_le_mul (by linarith) (by linarith) (by linarith) (by norm_num)
    have h2 := mul_le_mul_of_nonneg_left h1 hd.le
    have h3 : d ^ 4 / 24 * (5 + 3 * t ^ 2 + 10 * c - 4 * c ^ 2 - 9 * e) = d ^ 2 * (d ^ 2 / 24 * (5 + 3 * t ^ 2 + 10 * c - 4 * c ^ 2 - 9 * e)) := by ring
    rw [h3]
    linarith
  have hB : d ^ 6 / 720 * (61 + 90 * t ^ 2 + 298 * c + 45 * t ^ 4 - 252 * e - 3 * c ^ 2) ≤ d ^ 2 * (1 / 1000) := by
    have h4 : d ^ 2 * d ^ 2 ≤ 4 / 1000 * (4 / 1000) := mul_le_mul hw hw hd.le (by norm_num)
    have h1 : d ^ 2 * d ^ 2 / 720 * (61 + 90 * t ^ 2 + 298 * c + 45 * t ^ 4 - 252 * e - 3 * c ^ 2) ≤ 4 / 1000 * (4 / 1000) / 720 * 3700 :=
      mul_le_mul (by linarith) (by linarith) (by linarith) (by norm_num)
    have h2 := mul_le_mul_of_nonneg_left h1 hd.le
    have h3 : d ^ 6 / 720 * (61 + 90 * t ^ 2 + 298 * c + 45 * t ^ 4 - 252 * e - 3 * c ^ 2) =
        d ^ 2 * (d ^ 2 * d ^ 2 / 720 * (61 + 90 * t ^ 2 + 298 * c + 45 * t ^ 4 - 252 * e - 3 * c ^ 2)) := by ring
    rw [h3]
    linarith
  have htr : 17 / 1000 ≤ t / r := by
    rw [le_div_iff₀ hr]
    linarith
  have hC : 17 / 1000 * (d ^ 2 * (49 / 100)) ≤ t / r * (d ^ 2 / 2 - d ^ 4 / 24 * (5 + 3 * t ^ 2 + 10 * c - 4 * c ^ 2 - 9 * e)) :=
    mul_le_mul htr hA (by positivity) (by linarith)
  linarith

theorem utmLatitude_falls {x y : ℝ} (hx : x ≠ 0) (hx' : |x| ≤ 400000) (h1 : 1 ≤ degrees (utmFoot y)) (h2 : degrees (utmFoot y) ≤ 70) : utmLatitude x y < utmFoot y := by
  have habs : |degrees (utmFoot y)| ≤ 70 := abs_le.2 ⟨by linarith, h2⟩
  have hcos := cos_foot habs
  have ht2 := tan_foot habs
  have hw := foot_dist (utmFoot y) hx'
  obtain ⟨c0, c1, c2⟩ := foot_c (utmFoot y)
  have hE := utmEP2_bounds
  have hN := utmN_bounds (utmFoot y)
  have hK : utmK0 = 9996 / 10000 := rfl
  have hd : 0 < (x / (utmN (utmFoot y) * utmK0)) ^ 2 := by
    have : x / (utmN (utmFoot y) * utmK0) ≠ 0 := div_ne_zero hx (mul_pos (by linarith) (by rw [hK]; norm_num)).ne'
    positivity
  have hpos : 17 / 1000 ≤ utmFoot y := by
    have hp := pi_gt_d2
    have hp' := pi_pos
    unfold degrees at h1
    rw [← mul_div_assoc, le_div_iff₀ pi_pos] at h1
    linarith
  have hlt : utmFoot y < π / 2 := by
    have hp' := pi_pos
    unfold degrees at h2
    rw [← mul_div_assoc, div_le_iff₀ pi_pos] at h2
    linarith
  have ht : 17 / 1000 ≤ sin (utmFoot y) / cos (utmFoot y) := by
    rw [← tan_eq_sin_div_cos]
    exact hpos.trans (le_tan (by linarith) hlt)
  have hr : 0 < (1 - utmE) / (1 - utmE * sin (utmFoot y) ^ 2) ∧ (1 - utmE) / (1 - utmE * sin (utmFoot y) ^ 2) ≤ 1 := by
    have hs : 0 ≤ sin (utmFoot y) ^ 2 := sq_nonneg _
    have hs' : sin (utmFoot y) ^ 2 ≤ 1 := sin_sq_le_one _
    rw [utmE_eq]
    constructor
    · exact div_pos (by norm_num) (by linarith)
    · rw [div_le_one (by linarith)]; linarith
  have := falls_core hd hw ht ht2 c0 c1 c2 hE.1 hE.2 hr.1 hr.2
  unfold utmLatitude
  simp only
  linarith

theorem utmLongitude_side {x y : ℝ} (hx' : |x| ≤ 400000) (h : |degrees (utmFoot y)| ≤ 70) : 0 < utmLongitude x y ↔ 0 < x := by
  have hcos := cos_foot h
  have ht2 := tan_foot h
  have hw := foot_dist (utmFoot y) hx'
  obtain ⟨c0, c1, c2⟩ := foot_c (utmFoot y)
  have hE := utmEP2_bounds
  have hN := utmN_bounds (utmFoot y)
  have hK : utmK0 = 9996 / 10000 := rfl
  have hNK : 0 < utmN (utmFoot y) * utmK0 := mul_pos (by linarith) (by rw [hK]; norm_num)
  unfold utmLongitude
  simp only
  have hx : 0 < x ↔ 0 < x / (utmN (utmFoot y) * utmK0) := by
    rw [div_pos_iff_of_pos_right hNK]
  rw [hx, div_pos_iff_of_pos_right (by linarith)]
  set d := x / (utmN (utmFoot y) * utmK0)
  set t := sin (utmFoot y) / cos (utmFoot y)
  set c := utmE1 * cos (utmFoot y) ^ 2
  have t4 : 0 ≤ t ^ 4 := by positivity
  have t0 : 0 ≤ t ^ 2 := sq_nonneg _
  have e : d - d ^ 3 / 6 * (1 + 2 * t ^ 2 + c) + d ^ 5 / 120 * (5 - 2 * c + 28 * t ^ 2 - 3 * c ^ 2 + 8 * utmEP2 + 24 * t ^ 4) =
      d * (1 - d ^ 2 / 6 * (1 + 2 * t ^ 2 + c) + d ^ 4 / 120 * (5 - 2 * c + 28 * t ^ 2 - 3 * c ^ 2 + 8 * utmEP2 + 24 * t ^ 4)) := by ring
  rw [e]
  have h1 : d ^ 2 / 6 * (1 + 2 * t ^ 2 + c) ≤ 4 / 1000 / 6 * 18 := mul_le_mul (by linarith) (by linarith) (by linarith) (by norm_num)
  have h2 : 0 ≤ d ^ 4 / 120 * (5 - 2 * c + 28 * t ^ 2 - 3 * c ^ 2 + 8 * utmEP2 + 24 * t ^ 4) := mul_nonneg (by positivity) (by linarith)
  exact mul_pos_iff_of_pos_right (by linarith)

/-- **C120** (`to_latlon` off the central meridian) At the same northing, points off the central meridian are nearer to the equator than the point on it, and they are east of it exactly
if their easting is larger; for distances up to 400 km and latitudes up to 70 degrees, and for the latitude from 1 degree on. -/
theorem C120_to_off_centre (x n : ℝ) {zone : ℤ} (hz : 1 ≤ zone ∧ zone ≤ 60) (north : Bool) (hx : |x| ≤ 400000) :
    ∃ lat₀ lat lon, toLatlon 500000 n zone none (some north) false = .ok (lat₀, ((zoneNumberToCentralLongitude zone : ℤ) : ℝ)) ∧
      toLatlon (500000 + x) n zone none (some north) false = .ok (lat, lon) ∧
      (x ≠ 0 → 1 ≤ lat₀ → lat₀ ≤ 70 → lat < lat₀) ∧ (x ≠ 0 → lat₀ ≤ -1 → -70 ≤ lat₀ → lat₀ < lat) ∧
      (|lat₀| ≤ 70 → (((zoneNumberToCentralLongitude zone : ℤ) : ℝ) < lon ↔ 0 < x)) := by
  have l0 : ∀ y, utmLatitude 0 y = utmFoot y := fun y => by unfold utmLatitude; simp
  have l1 : ∀ y, utmLongitude 0 y = 0 := fun y => by unfold utmLongitude; simp
  have d0 : degrees 0 = 0 := by unfold degrees; simp
  have hmono : ∀ a b, a < b → degrees a < degrees b := fun a b hab => mul_lt_mul_of_pos_right hab (div_pos (by norm_num) pi_pos)
  refine ⟨degrees (utmFoot (if north then n else n - 10000000)), _, _, ?_, toLatlon_free _ _ hz north, ?_⟩
  · rw [toLatlon_free _ _ hz north, sub_self, l0, l1, d0, zero_add]
  · have e1 : 500000 + x - 500000 = x := by ring
    rw [e1]
    generalize (if north = true then n else n - 10000000) = y
    refine ⟨fun h h1 h2 => hmono _ _ (utmLatitude_falls h hx h1 h2), fun h h1 h2 => ?_, fun h => ?_⟩
    · have hneg : degrees (utmFoot (-y)) = -degrees (utmFoot y) := by rw [utmFoot_neg]; unfold degrees; ring
      have := utmLatitude_falls (y := -y) h hx (by rw [hneg]; linarith) (by rw [hneg]; linarith)
      rw [utmLatitude_south, utmFoot_neg] at this
      have hs := utmSixth_pos h y
      refine hmono _ _ ?_
      linarith
    · rw [← utmLongitude_side hx h]
      constructor
      · intro hh
        have : 0 < degrees (utmLongitude x y) := by linarith
        unfold degrees at this
        exact (pos_iff_pos_of_mul_pos this).2 (div_pos (by norm_num) pi_pos)
      · intro hh
        linarith [degrees_pos hh]

theorem utmE1_close : 16792 / 10000000 < utmE1 ∧ utmE1 < 16793 / 10000000 := by
  have h1 : 9966471 / 10000000 ≤ utmSqrtE := by
    unfold utmSqrtE utmE
    exact Real.le_sqrt_of_sq_le (by norm_num)
  have h2 : utmSqrtE < 9966472 / 10000000 := by
    unfold utmSqrtE utmE
    rw [Real.sqrt_lt' (by norm_num)]
    norm_num
  unfold utmE1
  constructor
  · rw [lt_div_iff₀ (by linarith)]; linarith
  · rw [div_lt_iff₀ (by linarith)]; linarith

theorem utmP_bounds : |utmP2 - utmM2 / utmM1| ≤ 1 / 1000000 ∧ |utmP2| ≤ 26 / 10000 ∧ |utmP3| ≤ 4 / 1000000 ∧ |utmP4| ≤ 1 / 1000000 ∧ |utmP5| ≤ 1 / 1000000 := by
  obtain ⟨h1, h2⟩ := utmE1_close
  have e0 : 0 < utmE1 := utmE1_bounds.1
  have e2 : 0 < utmE1 ^ 2 ∧ utmE1 ^ 2 ≤ (16793 / 10000000) ^ 2 := ⟨by positivity, pow_le_pow_left₀ e0.le h2.le 2⟩
  have e3 : 0 < utmE1 ^ 3 ∧ utmE1 ^ 3 ≤ (16793 / 10000000) ^ 3 := ⟨by positivity, pow_le_pow_left₀ e0.le h2.le 3⟩
  have e4 : 0 < utmE1 ^ 4 ∧ utmE1 ^ 4 ≤ (16793 / 10000000) ^ 4 := ⟨by positivity, pow_le_pow_left₀ e0.le h2.le 4⟩
  have e5 : 0 < utmE1 ^ 5 ∧ utmE1 ^ 5 ≤ (16793 / 10000000) ^ 5 := ⟨by positivity, pow_le_pow_left₀ e0.le h2.le 5⟩
  norm_num at e2 e3 e4 e5
  have hm : 25188 / 10000000 < utmM2 / utmM1 ∧ utmM2 / utmM1 < 25189 / 10000000 := by
    unfold utmM1 utmM2 utmE
    constructor <;> norm_num
  unfold utmP2 utmP3 utmP4 utmP5
  refine ⟨abs_le.2 ⟨?_, ?_⟩, abs_le.2 ⟨?_, ?_⟩, abs_le.2 ⟨?_, ?_⟩, abs_le.2 ⟨?_, ?_⟩, abs_le.2 ⟨?_, ?_⟩⟩ <;> linarith [e2.1, e2.2, e3.1, e3.2, e4.1, e4.2, e5.1, e5.2]

/-- the latitude at the foot of a point on the central meridian -/
theorem utmFoot_meridian (φ : ℝ) : |utmFoot (utmK0 * utmMeridian φ) - φ| ≤ 3 / 100000 := by
  obtain ⟨a1, a2, b1, b2, c1, c2, d1, d2⟩ := utmM_bounds
  obtain ⟨p2, p2', p3, p4, p5⟩ := utmP_bounds
  have hM : utmM1 ≠ 0 := by linarith
  have hmu : utmK0 * utmMeridian φ / utmK0 / (utmR * utmM1) = φ - utmM2 / utmM1 * sin (2 * φ) + utmM3 / utmM1 * sin (4 * φ) - utmM4 / utmM1 * sin (6 * φ) := by
    have hK : utmK0 ≠ 0 := by unfold utmK0; norm_num
    have hR : utmR ≠ 0 := by unfold utmR; norm_num
    unfold utmMeridian
    field_simp
  unfold utmFoot
  simp only
  rw [hmu]
  have q2 : |utmM2 / utmM1| ≤ 252 / 100000 := by
    rw [abs_of_pos (div_pos b1 (by linarith)), div_le_iff₀ (by linarith)]
    unfold utmM2 utmM1 utmE
    norm_num
  have q3 : |utmM3 / utmM1| ≤ 3 / 1000000 := by
    rw [abs_of_pos (div_pos c1 (by linarith)), div_le_iff₀ (by linarith)]
    unfold utmM3 utmM1 utmE
    norm_num
  have q4 : |utmM4 / utmM1| ≤ 1 / 1000000 := by
    rw [abs_of_pos (div_pos d1 (by linarith)), div_le_iff₀ (by linarith)]
    unfold utmM4 utmM1 utmE
    norm_num
  have hs : ∀ {a b : ℝ} (y : ℝ), |a| ≤ b → |a * sin y| ≤ b := fun y h => by
    rw [abs_mul]
    exact (mul_le_of_le_one_right (abs_nonneg _) (abs_sin_le_one y)).trans h
  have s2 := hs (2 * φ) q2
  have s3 := hs (4 * φ) q3
  have s4 := hs (6 * φ) q4
  set mu := φ - utmM2 / utmM1 * sin (2 * φ) + utmM3 / utmM1 * sin (4 * φ) - utmM4 / utmM1 * sin (6 * φ) with hmu'
  have hclose : |2 * mu - 2 * φ| ≤ 506 / 100000 := by
    obtain ⟨x1, x2⟩ := abs_le.1 s2
    obtain ⟨x3, x4⟩ := abs_le.1 s3
    obtain ⟨x5, x6⟩ := abs_le.1 s4
    exact abs_le.2 ⟨by rw [hmu']; linarith, by rw [hmu']; linarith⟩
  have t1 : |utmP2 * (sin (2 * mu) - sin (2 * φ))| ≤ 26 / 10000 * (506 / 100000) := by
    rw [abs_mul]
    exact mul_le_mul p2' ((abs_sin_sub_sin_le _ _).trans hclose) (abs_nonneg _) (by norm_num)
  have t2 := hs (2 * φ) p2
  have t3 := hs (4 * mu) p3
  have t4 := hs (6 * mu) p4
  have t5 := hs (8 * mu) p5
  have e : mu + utmP2 * sin (2 * mu) + utmP3 * sin (4 * mu) + utmP4 * sin (6 * mu) + utmP5 * sin (8 * mu) - φ =
      utmP2 * (sin (2 * mu) - sin (2 * φ)) + (utmP2 - utmM2 / utmM1) * sin (2 * φ) + utmM3 / utmM1 * sin (4 * φ) - utmM4 / utmM1 * sin (6 * φ) +
        utmP3 * sin (4 * mu) + utmP4 * sin (6 * mu) + utmP5 * sin (8 * mu) := by
    rw [show mu + utmP2 * sin (2 * mu) + utmP3 * sin (4 * mu) + utmP4 * sin (6 * mu) + utmP5 * sin (8 * mu) - φ =
      (mu - φ) + utmP2 * sin (2 * mu) + utmP3 * sin (4 * mu) + utmP4 * sin (6 * mu) + utmP5 * sin (8 * mu) by ring]
    have : mu - φ = -(utmM2 / utmM1 * sin (2 * φ)) + utmM3 / utmM1 * sin (4 * φ) - utmM4 / utmM1 * sin (6 * φ) := by rw [hmu']; ring
    rw [this]
    ring
  rw [e]
  obtain ⟨x1, x2⟩ := abs_le.1 t1
  obtain ⟨x3, x4⟩ := abs_le.1 t2
  obtain ⟨x5, x6⟩ := abs_le.1 t3
  obtain ⟨x7, x8⟩ := abs_le.1 t4
  obtain ⟨x9, x10⟩ := abs_le.1 t5
  obtain ⟨y1, y2⟩ := abs_le.1 s3
  obtain ⟨y3, y4⟩ := abs_le.1 s4
  exact abs_le.2 ⟨by linarith, by linarith⟩

/-- **C120** (there and back on the central meridian) `to_latlon` takes a point on the central meridian back to that meridian, to within 2/1000 of a degree of its latitude. -/
theorem C120_round_trip {latitude : ℚ} (h : -80 ≤ latitude ∧ latitude ≤ 84) {zone : ℤ} (hz : 1 ≤ zone ∧ zone ≤ 60) :
    ∃ n c lat, fromLatlon latitude (zoneNumberToCentralLongitude zone) (some zone) none = .ok (500000, n, zone, c) ∧
      toLatlon 500000 n zone none (some (decide (0 ≤ latitude))) false = .ok (lat, ((zoneNumberToCentralLongitude zone : ℤ) : ℝ)) ∧ |lat - latitude| < 2 / 1000 := by
  have hc : (-180 : ℚ) ≤ (zoneNumberToCentralLongitude zone : ℤ) ∧ ((zoneNumberToCentralLongitude zone : ℤ) : ℚ) ≤ 180 := by
    unfold zoneNumberToCentralLongitude
    constructor
    · exact_mod_cast (by omega : (-180 : ℤ) ≤ (zone - 1) * 6 - 180 + 3)
    · exact_mod_cast (by omega : (zone - 1) * 6 - 180 + 3 ≤ (180 : ℤ))
  obtain ⟨c, h1, -⟩ := fromLatlon_forced h hc hz
  have e0 : ∀ φ, utmEasting φ 0 = 500000 := fun φ => by unfold utmEasting; simp
  have n0 : ∀ φ, utmNorthing φ 0 = utmK0 * utmMeridian φ := fun φ => by unfold utmNorthing; simp
  have r0 : radians 0 = 0 := by unfold radians; simp
  have hp : utmPoint latitude (zoneNumberToCentralLongitude zone : ℤ) zone =
      (500000, if latitude < 0 then utmK0 * utmMeridian (radians latitude) + 10000000 else utmK0 * utmMeridian (radians latitude)) := by
    unfold utmPoint
    simp [r0, e0, n0]
  have l0 : ∀ y, utmLatitude 0 y = utmFoot y := fun y => by unfold utmLatitude; simp
  have l1 : ∀ y, utmLongitude 0 y = 0 := fun y => by unfold utmLongitude; simp
  have d0 : degrees 0 = 0 := by unfold degrees; simp
  rw [hp] at h1
  refine ⟨_, _, degrees (utmFoot (utmK0 * utmMeridian (radians latitude))), h1, ?_, ?_⟩
  · rw [toLatlon_free _ _ hz, sub_self, l0, l1, d0, zero_add]
    by_cases hl : 0 ≤ latitude
    · simp [hl, not_lt.2 hl]
    · simp [hl, not_le.1 hl]
  · have hpi := pi_pos
    have hd : degrees (utmFoot (utmK0 * utmMeridian (radians latitude))) - latitude = degrees (utmFoot (utmK0 * utmMeridian (radians latitude)) - radians latitude) := by
      unfold degrees radians
      field_simp
    rw [hd]
    unfold degrees
    rw [abs_mul, abs_of_pos (div_pos (by norm_num) hpi)]
    have hk : 180 / π ≤ 60 := by
      rw [div_le_iff₀ hpi]
      linarith [pi_gt_three]
    exact lt_of_le_of_lt (mul_le_mul (utmFoot_meridian _) hk (div_pos (by norm_num) hpi).le (by norm_num)) (by norm_num)

/-- **C120** (violation: the date line) At longitude 180, which `from_latlon` accepts, `to_latlon` rejects the result. -/
theorem C120_dateline_violation (latitude : ℚ) (h : -80 ≤ latitude ∧ latitude ≤ 84) :
    ∃ e n c, fromLatlon latitude 180 none none = .ok (e, n, 61, some c) ∧ ∀ strict, toLatlon e n 61 (some c) none strict = .error .valueError := by
  obtain ⟨c, h1, -⟩ := fromLatlon_free (longitude := 180) h (by norm_num)
  have hz : latlonToZoneNumber latitude 180 = 61 := by
    have := (C54_dateline_violation latitude h.1 h.2).1
    obtain ⟨c, hc, -⟩ := (C54_from_latlon latitude 180).1 ⟨h, by norm_num, by norm_num⟩
    unfold utmOfPoint at this
    rw [hc] at this
    injection this
  rw [hz] at h1
  refine ⟨_, _, c, h1, fun strict => ?_⟩
  unfold toLatlon
  split_ifs
  all_goals rfl

/-- **C120** (violation: forced letters) A forced zone letter is checked only if the zone number is forced as well: `from_latlon` returns any letter, and `to_latlon` rejects what
`check_valid_zone` does. -/
theorem C120_letter_violation (latitude longitude : ℚ) (h : -80 ≤ latitude ∧ latitude ≤ 84) (h' : -180 ≤ longitude ∧ longitude ≤ 180) (c : Char)
    (hc : ∀ zone, checkValidZone zone (some c.toUpper) = .error .valueError) :
    (∃ e n zone, fromLatlon latitude longitude none (some c) = .ok (e, n, zone, some c) ∧ ∀ strict, toLatlon e n zone (some c) none strict = .error .valueError) ∧
    ∀ zone, fromLatlon latitude longitude (some zone) (some c) = .error .valueError := by
  constructor
  · refine ⟨(utmPoint latitude longitude (latlonToZoneNumber latitude longitude)).1, (utmPoint latitude longitude (latlonToZoneNumber latitude longitude)).2,
      latlonToZoneNumber latitude longitude, ?_, fun strict => ?_⟩
    · unfold fromLatlon utmPoint
      rw [if_neg (not_not.2 h), if_neg (not_not.2 h')]
      simp only [radians_sub, Option.getD_none]
      rfl
    · unfold toLatlon
      split_ifs
      all_goals first | rfl | (rw [Option.map_some, hc]; rfl)
  · intro zone
    unfold fromLatlon
    rw [if_neg (not_not.2 h), if_neg (not_not.2 h')]
    simp only [Option.map_some, hc]
    rfl

/-! ### Examples -/

/-- Boston is in zone 19, whose central meridian is at 69 degrees west, so its easting is below 500,000 -/
example : latlonToZoneNumber (42 + 36/100) (-(71 + 6/100)) = 19 ∧ zoneNumberToCentralLongitude 19 = -69 ∧
    ∃ e n c, fromLatlon (42 + 36/100) (-(71 + 6/100)) (some 19) none = .ok (e, n, 19, c) ∧ ¬ 500000 < e := by
  refine ⟨by decide +kernel, by decide, ?_⟩
  have hc : zoneNumberToCentralLongitude 19 = -69 := by decide
  obtain ⟨e, n, c, h1, h2⟩ := C120_side (latitude := 42 + 36/100) (longitude := -(71 + 6/100)) (zone := 19) (by norm_num) (by norm_num) (by norm_num) (by
    rw [hc, abs_le]; norm_num)
  refine ⟨e, n, c, h1, fun h => ?_⟩
  have := h2.1 h
  rw [hc] at this
  norm_num at this

/-- Quito is off the central meridian of its zone, and nearly on the equator -/
example : (-785/10 : ℚ) ≠ zoneNumberToCentralLongitude (latlonToZoneNumber 0 (-785/10)) := by
  have : zoneNumberToCentralLongitude (latlonToZoneNumber 0 (-785/10)) = -81 := by decide +kernel
  rw [this]
  norm_num

/-- the letters I and O are in no zone, whether capital or not -/
example : ∀ c ∈ ['I', 'O', 'i', 'o', 'A', 'Z'], ∀ zone, checkValidZone zone (some c.toUpper) = .error .valueError := by
  intro c hc zone
  have : ¬ ('C' ≤ c.toUpper ∧ c.toUpper ≤ 'X') ∨ c.toUpper = 'I' ∨ c.toUpper = 'O' := by
    revert c
    decide +kernel
  unfold checkValidZone
  by_cases hz : 1 ≤ zone ∧ zone ≤ 60
  · rw [if_neg (not_not.2 hz)]
    exact if_pos this
  · rw [if_pos hz]

end GC

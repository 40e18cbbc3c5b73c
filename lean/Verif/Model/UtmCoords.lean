import Verif.Model.Utm
import Mathlib.Analysis.SpecialFunctions.Trigonometric.Basic
import Mathlib.Analysis.SpecialFunctions.Sqrt

/-!
# UTM coordinates

Model of the formulas of `from_latlon` and `to_latlon` (vendor/utm/conversion.py).  Degrees are rational numbers (floats are), eastings and northings are real numbers with exact
arithmetic, sine, cosine and square root (python: floats with rounding); inputs are numbers, not numpy arrays; division by the cosine of a right angle, which no float hits, is 0.
-/

set_option linter.unusedSectionVars false
set_option autoImplicit false

namespace GC

/-- `K0` (vendor/utm/conversion.py:16) -/
noncomputable def utmK0 : ℝ := 9996 / 10000
/-- `E` (vendor/utm/conversion.py:18) -/
noncomputable def utmE : ℝ := 669438 / 100000000
/-- `E_P2` (vendor/utm/conversion.py:21) -/
noncomputable def utmEP2 : ℝ := utmE / (1 - utmE)
/-- `SQRT_E` (vendor/utm/conversion.py:23) -/
noncomputable def utmSqrtE : ℝ := Real.sqrt (1 - utmE)
/-- `_E` (vendor/utm/conversion.py:24) -/
noncomputable def utmE1 : ℝ := (1 - utmSqrtE) / (1 + utmSqrtE)
/-- `M1` (vendor/utm/conversion.py:30) -/
noncomputable def utmM1 : ℝ := 1 - utmE / 4 - 3 * utmE ^ 2 / 64 - 5 * utmE ^ 3 / 256
/-- `M2` (vendor/utm/conversion.py:31) -/
noncomputable def utmM2 : ℝ := 3 * utmE / 8 + 3 * utmE ^ 2 / 32 + 45 * utmE ^ 3 / 1024
/-- `M3` (vendor/utm/conversion.py:32) -/
noncomputable def utmM3 : ℝ := 15 * utmE ^ 2 / 256 + 45 * utmE ^ 3 / 1024
/-- `M4` (vendor/utm/conversion.py:33) -/
noncomputable def utmM4 : ℝ := 35 * utmE ^ 3 / 3072
/-- `P2` (vendor/utm/conversion.py:35) -/
noncomputable def utmP2 : ℝ := 3 / 2 * utmE1 - 27 / 32 * utmE1 ^ 3 + 269 / 512 * utmE1 ^ 5
/-- `P3` (vendor/utm/conversion.py:36) -/
noncomputable def utmP3 : ℝ := 21 / 16 * utmE1 ^ 2 - 55 / 32 * utmE1 ^ 4
/-- `P4` (vendor/utm/conversion.py:37) -/
noncomputable def utmP4 : ℝ := 151 / 96 * utmE1 ^ 3 - 417 / 128 * utmE1 ^ 5
/-- `P5` (vendor/utm/conversion.py:38) -/
noncomputable def utmP5 : ℝ := 1097 / 512 * utmE1 ^ 4
/-- `R` (vendor/utm/conversion.py:40) -/
noncomputable def utmR : ℝ := 6378137

/-- `mathlib.radians` (vendor/utm/conversion.py:216, 234, 236) -/
noncomputable def radians (x : ℝ) : ℝ := x * (Real.pi / 180)

/-- `mathlib.degrees` (vendor/utm/conversion.py:182-183) -/
noncomputable def degrees (x : ℝ) : ℝ := x * (180 / Real.pi)

/-- `n` of `from_latlon` (vendor/utm/conversion.py:238) and `to_latlon` (:152-155) at the latitude `φ` -/
noncomputable def utmN (φ : ℝ) : ℝ := utmR / Real.sqrt (1 - utmE * Real.sin φ ^ 2)

/-- `m` of `from_latlon` (vendor/utm/conversion.py:248-253) -/
noncomputable def utmMeridian (φ : ℝ) : ℝ :=
  utmR * (utmM1 * φ - utmM2 * Real.sin (2 * φ) + utmM3 * Real.sin (4 * φ) - utmM4 * Real.sin (6 * φ))

/-- `easting` of `from_latlon` (vendor/utm/conversion.py:217-222, 238-246, 255-264); `φ` is `lat_rad`, `δ` is `lon_rad - central_lon_rad` -/
noncomputable def utmEasting (φ δ : ℝ) : ℝ :=
  let t := Real.sin φ / Real.cos φ
  let c := utmEP2 * Real.cos φ ^ 2
  let a := Real.cos φ * δ
  utmK0 * utmN φ * (a + a ^ 3 / 6 * (1 - t ^ 2 + c) + a ^ 5 / 120 * (5 - 18 * t ^ 2 + t ^ 4 + 72 * c - 58 * utmEP2)) + 500000

/-- `northing` of `from_latlon` before the shift of the south (vendor/utm/conversion.py:217-222, 238-253, 266-275) -/
noncomputable def utmNorthing (φ δ : ℝ) : ℝ :=
  let t := Real.sin φ / Real.cos φ
  let c := utmEP2 * Real.cos φ ^ 2
  let a := Real.cos φ * δ
  utmK0 * (utmMeridian φ + utmN φ * t *
    (a ^ 2 / 2 + a ^ 4 / 24 * (5 - t ^ 2 + 9 * c + 4 * c ^ 2) + a ^ 6 / 720 * (61 - 58 * t ^ 2 + t ^ 4 + 600 * c - 330 * utmEP2)))

/-- `from_latlon` (vendor/utm/conversion.py:187-282).  A forced letter is one character.  `mixed_signs` (:66-67) is `False` for a number and `negative` (:70-73) is `x < 0`. -/
noncomputable def fromLatlon (latitude longitude : ℚ) (forceNumber : Option ℤ) (forceLetter : Option Char) : Py (ℝ × ℝ × ℤ × Option Char) :=
  if ¬ (-80 ≤ latitude ∧ latitude ≤ 84) then .error .valueError
  else if ¬ (-180 ≤ longitude ∧ longitude ≤ 180) then .error .valueError
  else do
    match forceNumber with
    | some z => checkValidZone z (forceLetter.map Char.toUpper)
    | none => pure ()
    let zone := forceNumber.getD (latlonToZoneNumber latitude longitude)
    let letter ← match forceLetter with
      | some c => pure (some c)
      | none => latitudeToZoneLetter latitude
    let φ := radians (latitude : ℝ)
    let δ := radians (longitude : ℝ) - radians ((zoneNumberToCentralLongitude zone : ℤ) : ℝ)
    let northing := if latitude < 0 then utmNorthing φ δ + 10000000 else utmNorthing φ δ
    return (utmEasting φ δ, northing, zone, letter)

/-- `p_rad` of `to_latlon` (vendor/utm/conversion.py:132-141) for the northing `y` -/
noncomputable def utmFoot (y : ℝ) : ℝ :=
  let mu := y / utmK0 / (utmR * utmM1)
  mu + utmP2 * Real.sin (2 * mu) + utmP3 * Real.sin (4 * mu) + utmP4 * Real.sin (6 * mu) + utmP5 * Real.sin (8 * mu)

/-- `latitude` of `to_latlon` in radians (vendor/utm/conversion.py:143-173), for `x = easting - 500000` -/
noncomputable def utmLatitude (x y : ℝ) : ℝ :=
  let p := utmFoot y
  let t := Real.sin p / Real.cos p
  let r := (1 - utmE) / (1 - utmE * Real.sin p ^ 2)
  let c := utmE1 * Real.cos p ^ 2
  let d := x / (utmN p * utmK0)
  p - (t / r) * (d ^ 2 / 2 - d ^ 4 / 24 * (5 + 3 * t ^ 2 + 10 * c - 4 * c ^ 2 - 9 * utmEP2))
    + d ^ 6 / 720 * (61 + 90 * t ^ 2 + 298 * c + 45 * t ^ 4 - 252 * utmEP2 - 3 * c ^ 2)

/-- `longitude` of `to_latlon` in radians from the central meridian (vendor/utm/conversion.py:143-166, 175-179) -/
noncomputable def utmLongitude (x y : ℝ) : ℝ :=
  let p := utmFoot y
  let t := Real.sin p / Real.cos p
  let c := utmE1 * Real.cos p ^ 2
  let d := x / (utmN p * utmK0)
  (d - d ^ 3 / 6 * (1 + 2 * t ^ 2 + c) + d ^ 5 / 120 * (5 - 2 * c + 28 * t ^ 2 - 3 * c ^ 2 + 8 * utmEP2 + 24 * t ^ 4)) / Real.cos p

/-- `in_bounds(x, lower, upper, upper_strict)` for a number (vendor/utm/conversion.py:45-52) -/
def utmInBounds (x lower upper : ℝ) (upperStrict : Bool) : Prop := lower ≤ x ∧ if upperStrict then x < upper else x ≤ upper

open Classical in
/-- `to_latlon` (vendor/utm/conversion.py:76-184); the letter is one character. -/
noncomputable def toLatlon (easting northing : ℝ) (zone : ℤ) (letter : Option Char) (northern : Option Bool) (strict : Bool) : Py (ℝ × ℝ) :=
  if letter = none ∧ northern = none then .error .valueError
  else if letter ≠ none ∧ northern ≠ none then .error .valueError
  else if strict = true ∧ ¬ utmInBounds easting 100000 1000000 true then .error .valueError
  else if strict = true ∧ ¬ utmInBounds northing 0 10000000 false then .error .valueError
  else do
    checkValidZone zone (letter.map Char.toUpper)
    let north : Bool := match letter with
      | some c => decide ('N' ≤ c.toUpper)
      | none => northern.getD false
    let x := easting - 500000
    let y := if north then northing else northing - 10000000
    return (degrees (utmLatitude x y), degrees (utmLongitude x y) + ((zoneNumberToCentralLongitude zone : ℤ) : ℝ))

end GC

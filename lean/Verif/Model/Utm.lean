import Verif.Py
import Mathlib.Algebra.Order.Floor.Ring
import Mathlib.Data.Rat.Floor

/-!
# UTM zones

Model of the zone computations of `gerrychain/vendor/utm/conversion.py` and of `identify_utm_zone` in `gerrychain/graph/geo.py`.  Coordinates are
rational numbers with exact arithmetic (python: floats; adding 180 to a longitude just below 180 rounds to 360, which is not modelled).  The
formulas for easting and northing are in Model/UtmCoords; numpy arrays as inputs are not modelled.
-/

set_option linter.unusedSectionVars false
set_option autoImplicit false

namespace GC

/-- `int(x)`: rounds toward 0 -/
def pyInt (x : ℚ) : ℤ := if 0 ≤ x then ⌊x⌋ else ⌈x⌉

/-- `ZONE_LETTERS` (vendor/utm/conversion.py:42) -/
def zoneLetters : List Char := "CDEFGHJKLMNPQRSTUVWXX".toList

/-- `latitude_to_zone_letter` (vendor/utm/conversion.py:285-294); `none` is python's `None`.  The index is never negative here. -/
def latitudeToZoneLetter (latitude : ℚ) : Py (Option Char) :=
  if -80 ≤ latitude ∧ latitude ≤ 84 then
    match zoneLetters[(pyInt (latitude + 80)).toNat >>> 3]? with
    | some c => .ok (some c)
    | none => .error .indexError
  else .ok none

/-- `latlon_to_zone_number` (vendor/utm/conversion.py:297-319) -/
def latlonToZoneNumber (latitude longitude : ℚ) : ℤ :=
  if (56 ≤ latitude ∧ latitude < 64) ∧ (3 ≤ longitude ∧ longitude < 12) then 32
  else
    let otherwise := pyInt ((longitude + 180) / 6) + 1
    if (72 ≤ latitude ∧ latitude ≤ 84) ∧ 0 ≤ longitude then
      if longitude < 9 then 31
      else if longitude < 21 then 33
      else if longitude < 33 then 35
      else if longitude < 42 then 37
      else otherwise
    else otherwise

/-- `zone_number_to_central_longitude` (vendor/utm/conversion.py:322-323) -/
def zoneNumberToCentralLongitude (zone : ℤ) : ℤ := (zone - 1) * 6 - 180 + 3

/-- `check_valid_zone` (vendor/utm/conversion.py:55-63); `OutOfRangeError` is a `ValueError`.  The letter is given in upper case. -/
def checkValidZone (zone : ℤ) (letter : Option Char) : Py Unit :=
  if ¬ (1 ≤ zone ∧ zone ≤ 60) then .error .valueError
  else match letter with
    | none => .ok ()
    | some c => if ¬ ('C' ≤ c ∧ c ≤ 'X') ∨ c = 'I' ∨ c = 'O' then .error .valueError else .ok ()

/-- The range checks, zone number and zone letter of `from_latlon` without forced zone (vendor/utm/conversion.py:186-229, 282). -/
def fromLatlonZone (latitude longitude : ℚ) : Py (ℤ × Option Char) :=
  if ¬ (-80 ≤ latitude ∧ latitude ≤ 84) then .error .valueError
  else if ¬ (-180 ≤ longitude ∧ longitude ≤ 180) then .error .valueError
  else do
    let letter ← latitudeToZoneLetter latitude
    return (latlonToZoneNumber latitude longitude, letter)

/-- `utm_of_point` (graph/geo.py:15-20) for a point with `y` = latitude and `x` = longitude -/
def utmOfPoint (latitude longitude : ℚ) : Py ℤ := do
  let z ← fromLatlonZone latitude longitude
  return z.1

/-- `Counter(xs)` for a list: counts in order of first occurrence (graph/geo.py:29) -/
def zoneCounter {A : Type} [DecidableEq A] (l : List A) : Dict A ℕ := l.foldl (fun d x => d.set x ((d.get? x).getD 0 + 1)) .empty

/-- `counts.most_common(1)[0][0]` (graph/geo.py:31): a key with the largest count, the first one inserted if there are several. -/
def mostCommon {A : Type} [DecidableEq A] (d : Dict A ℕ) : Py A :=
  match d.entries with
  | [] => .error .indexError
  | e :: rest => .ok (rest.foldl (fun best e => if best.2 < e.2 then e else best) e).1

/-- `identify_utm_zone` (graph/geo.py:23-32) from the centroids (latitude, longitude) in degrees; the change of coordinate system is not modelled. -/
def identifyUtmZone (centroids : List (ℚ × ℚ)) : Py ℤ := do
  let zones ← centroids.mapM (fun c => utmOfPoint c.1 c.2)
  mostCommon (zoneCounter zones)

end GC

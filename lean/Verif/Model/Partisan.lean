import Verif.Model.Election
import Mathlib.Algebra.Order.Round
import Mathlib.Data.Rat.Floor
import Mathlib.Data.List.Sort

/-!
# Partisan metrics

Model of `gerrychain/metrics/partisan.py` on `ElectionResults` (`ElectionVal` together with the list of parties of its election).
Exact arithmetic instead of floating point numbers; NaN is `⊥`.
-/

set_option linter.unusedSectionVars false
set_option autoImplicit false

namespace GC

variable {P : Type} [DecidableEq P]

/-- the numbers of a list without NaN -/
def numbers : List Num → Option (List ℚ)
  | [] => some []
  | none :: _ => none
  | some x :: l => (numbers l).map (x :: ·)

/-- `sorted(data)`; numbers without NaN have only one sorted order, so the algorithm does not matter. -/
def pySorted (l : List ℚ) : List ℚ := l.insertionSort (· ≤ ·)

/-- `numpy.mean` of a non-empty list -/
def numpyMean (l : List ℚ) : ℚ := l.sum / l.length

/-- `numpy.median` of a non-empty list: the middle of the sorted list, or the mean of the two middle elements -/
def numpyMedian (l : List ℚ) : ℚ :=
  ((pySorted l).getD ((l.length - 1) / 2) 0 + (pySorted l).getD (l.length / 2) 0) / 2

/-- `election.parties[0]` (metrics/partisan.py:25, 46, 110, 133) -/
def firstParty : List String → Py String
  | [] => .error .indexError
  | p :: _ => .ok p

/-- `mean_median` (metrics/partisan.py:13-28); numpy returns NaN for an empty list. -/
def meanMedian (r : ElectionVal P) (parties : List String) : Py Num := do
  let p ← firstParty parties
  let data ← r.percents p
  pure (match numbers data with
    | none => ⊥
    | some l => if l = [] then ⊥ else ((numpyMedian l - numpyMean l : ℚ) : Num))

/-- `round(len(data) / 3)` (metrics/partisan.py:49); a third of an integer is never half way between two integers. -/
def thirdianIndex (n : ℕ) : ℕ := (round ((n : ℚ) / 3)).toNat

/-- `mean_thirdian` (metrics/partisan.py:31-52).  With NaN in the data the order of `sorted` is arbitrary, but the index exists in every
order and the difference with the mean is NaN. -/
def meanThirdian (r : ElectionVal P) (parties : List String) : Py Num := do
  let p ← firstParty parties
  let data ← r.percents p
  if data.length ≤ thirdianIndex data.length then .error .indexError
  else pure (match numbers data with
    | none => ⊥
    | some l => (((pySorted l).getD (thirdianIndex l.length) 0 - numpyMean l : ℚ) : Num))

/-- `x / 2` -/
def Num.half : Num → Num
  | none => ⊥
  | some x => some (x / 2)

/-- `wasted_votes` (metrics/partisan.py:76-94) -/
def wastedVotes (party1 party2 : Num) : Num × Num :=
  let total := party1 + party2
  if Num.gt party1 party2 then (Num.sub party1 (Num.half total), party2)
  else (party1, Num.sub party2 (Num.half total))

/-- `efficiency_gap` (metrics/partisan.py:55-73); unpacking raises `ValueError` unless there are exactly two parties. -/
def efficiencyGap (r : ElectionVal P) (parties : List String) : Py Num := do
  let counts ← parties.mapM (fun party => r.counts party)
  match counts with
  | [party1, party2] =>
    let wasted := List.zipWith wastedVotes party1 party2
    Num.div (wasted.map (fun w => Num.sub w.2 w.1)).sum r.totalVotes
  | _ => .error .valueError

/-- `partisan_bias` (metrics/partisan.py:97-114); no share is greater than NaN. -/
def partisanBias (r : ElectionVal P) (parties : List String) : Py Num := do
  let p ← firstParty parties
  let shares ← r.percents p
  let above := match numbers shares with
    | none => 0
    | some l => (l.filter (fun x => numpyMean l < x)).length
  if shares.length = 0 then .error .zeroDivision
  else pure (((above : ℚ) / shares.length - 1 / 2 : ℚ) : Num)

/-- The score computed by `partisan_gini` from the overall result and the race results (metrics/partisan.py:135-147). -/
def giniScore (overall : ℚ) (races : List ℚ) : ℚ :=
  let seatsVotes := ((pySorted races).reverse).map (fun r => overall - r + 1 / 2)
  let reflected := (seatsVotes.map (fun s => 1 - s)).reverse
  (List.zipWith (fun s r => |s - r|) seatsVotes reflected).sum / races.length

/-- `partisan_gini` (metrics/partisan.py:117-147); NaN among the results makes the sum NaN, whatever the order. -/
def partisanGini (r : ElectionVal P) (parties : List String) : Py Num := do
  let p ← firstParty parties
  let overall ← r.percentOverall p
  let data ← r.percents p
  if data.length = 0 then .error .zeroDivision
  else pure (match overall, numbers data with
    | some o, some l => ((giniScore o l : ℚ) : Num)
    | _, _ => ⊥)

end GC

import Verif.Model.Locality
import Mathlib.Analysis.SpecialFunctions.Log.Basic
import Mathlib.Analysis.SpecialFunctions.Pow.Real

/-!
# Entropies of locality splits

Model of `shannon_entropy`, `power_entropy` and `symmetric_entropy` of `LocalitySplits` (updaters/locality_split_scores.py:276-412).
-/

set_option linter.unusedSectionVars false
set_option autoImplicit false

namespace GC

variable {V P L : Type} [LinearOrder V] [DecidableEq P] [DecidableEq L]

/-- The name of a locality: the attribute of a node may be a string or a number (updaters/locality_split_scores.py:138). -/
inductive LocLabel
  | str (s : String)
  | num (n : ℤ)
  deriving DecidableEq

/-- `str(locality_j)` (updaters/locality_split_scores.py:310, 353) -/
def LocLabel.toStr : LocLabel → LocLabel
  | .str s => .str s
  | .num n => .str (toString n)

/-- `total_vtds` (updaters/locality_split_scores.py:287-290, 330-333) -/
def totalVtds (splits : Dict P (Dict L ℕ)) : ℕ := splits.values.foldl (fun t v => v.values.foldl (· + ·) t) 0

/-- `tot_county_vtds` (updaters/locality_split_scores.py:294-299, 337-342) -/
def localityVtds (splits : Dict P (Dict L ℕ)) (loc : L) : ℕ :=
  splits.values.foldl (fun t v => match v.get? loc with
    | some n => t + n
    | none => t) 0

/-- one round of the loop for `inner_sum` (updaters/locality_split_scores.py:308-314, 351-357): the membership test is made with the locality, the
lookup with its string -/
noncomputable def entropyStep (tot : ℕ) (loc : LocLabel) (term : ℝ → ℝ) (acc : ℝ) (v : Dict LocLabel ℕ) : Py ℝ :=
  if loc ∈ v.keys then do
    let n : ℕ ← v.get loc.toStr
    if tot = 0 then .error .zeroDivision
    else if (n : ℝ) / tot ≠ 0 then .ok (acc + term (n / tot)) else .ok acc
  else .ok acc

/-- `inner_sum` (updaters/locality_split_scores.py:301, 306-314 and 344, 349-357) -/
noncomputable def entropyInner (splits : Dict P (Dict LocLabel ℕ)) (tot : ℕ) (loc : LocLabel) (term : ℝ → ℝ) : Py ℝ :=
  splits.values.foldlM (entropyStep tot loc term) 0

/-- `shannon_entropy` (updaters/locality_split_scores.py:287-317).  `localities` is the set `self.localities` in the order of its iteration. -/
noncomputable def shannonEntropy (localities : List LocLabel) (splits : Dict P (Dict LocLabel ℕ)) : Py ℝ :=
  localities.foldlM (fun entropy loc =>
    if totalVtds splits = 0 then .error .zeroDivision
    else do
      let inner ← entropyInner splits (localityVtds splits loc) loc (fun p => p * Real.log (1 / p))
      return entropy + (localityVtds splits loc : ℝ) / totalVtds splits * inner) 0

/-- `power_entropy` (updaters/locality_split_scores.py:330-360) -/
noncomputable def powerEntropy (alpha : ℝ) (localities : List LocLabel) (splits : Dict P (Dict LocLabel ℕ)) : Py ℝ :=
  localities.foldlM (fun entropy loc =>
    if totalVtds splits = 0 then .error .zeroDivision
    else do
      let inner ← entropyInner splits (localityVtds splits loc) loc (fun p => p ^ (1 - alpha))
      if (localityVtds splits loc : ℝ) / totalVtds splits = 0 then .error .zeroDivision
      else return entropy + 1 / ((localityVtds splits loc : ℝ) / totalVtds splits) * (inner - 1)) 0

/-- `locality_pop` of one district (updaters/locality_split_scores.py:381-385) -/
def localityPop (localities : List L) (localitydict : Dict V L) (pop : V → ℚ) (vtds : Finset V) : Py (Dict L ℚ) :=
  (iter vtds).foldlM (fun d v => do
    let c ← localitydict.get v
    let x ← d.get c
    return d.set c (x + pop v)) (localities.foldl (fun d k => d.set k 0) Dict.empty)

/-- `district_dict` (updaters/locality_split_scores.py:377-386): the keys are those of `partition.parts`, in the same order -/
def districtPops (localities : List L) (localitydict : Dict V L) (pop : V → ℚ) (parts : Dict P (Finset V)) : Py (Dict P (Dict L ℚ)) := do
  let l ← parts.entries.mapM (fun e => do
    let d ← localityPop localities localitydict pop e.2
    return (e.1, d))
  return ⟨l⟩

/-- `district_dict_inv` (updaters/locality_split_scores.py:388-391) -/
def invertPops {K L : Type} [DecidableEq K] [DecidableEq L] (d : Dict K (Dict L ℚ)) : Dict L (Dict K ℚ) :=
  d.entries.foldl (fun inv e => e.2.entries.foldl (fun inv e2 => inv.modifyD e2.1 Dict.empty (fun x => x.set e.1 e2.2)) inv) Dict.empty

/-- `math.sqrt(pop / total)` (updaters/locality_split_scores.py:400, 409) -/
noncomputable def sqrtShare (x total : ℚ) : Py ℝ :=
  if total = 0 then .error .zeroDivision
  else if x / total < 0 then .error .valueError
  else .ok (Real.sqrt (x / total : ℚ))

/-- One of the two loops of `symmetric_entropy` (updaters/locality_split_scores.py:394-401, 404-410), starting with the given score -/
noncomputable def splitScore {K L : Type} (score : ℝ) (d : Dict K (Dict L ℚ)) : Py ℝ :=
  d.values.foldlM (fun score pops => do
    let total : ℚ := pops.values.foldl (· + ·) 0
    let fractional ← pops.values.foldlM (fun f x => do
      let r ← sqrtShare x total
      return f + r) 0
    return score + (total : ℝ) * fractional) score

/-- `symmetric_entropy` (updaters/locality_split_scores.py:362-412) -/
noncomputable def symmetricEntropy (localities : List L) (localitydict : Dict V L) (pop : V → ℚ) (parts : Dict P (Finset V)) : Py ℝ := do
  let d ← districtPops localities localitydict pop parts
  let score ← splitScore 0 d
  splitScore score (invertPops d)

end GC

import Verif.Model.Heap
import Mathlib.Algebra.Order.Field.Rat

/-!
# `ElectionResults`: model of `gerrychain/updaters/election.py:170-367`
-/

set_option autoImplicit false

namespace GC

variable {P : Type} [DecidableEq P]

/-- `x > y` on numbers that may be NaN (every comparison with NaN is `False`). -/
def Num.gt : Num → Num → Bool
  | some x, some y => decide (y < x)
  | _, _ => false

/-- `x / y` on numbers that may be NaN; `ZeroDivisionError` for a zero divisor.  (Simplified: for numpy numbers python
returns inf/nan with a warning instead of raising.) -/
def Num.div (x y : Num) : Py Num :=
  if y = 0 then .error .zeroDivision
  else match x, y with
    | some x, some y => .ok (some (x / y))
    | _, _ => .ok ⊥

/-- `get_percents(counts, totals)` (updaters/election.py:170-185). -/
def getPercents (counts totals : Dict P Num) : Py (Dict P Num) :=
  totals.entries.foldlM (fun d e => do
    if Num.gt e.2 0 then
      let c ← counts.get e.1
      let x ← Num.div c e.2
      return d.set e.1 x
    else return d.set e.1 ⊥) Dict.empty

namespace ElectionVal

/-- `percents_for_party[party]` (updaters/election.py:241-244). -/
def percentsForParty (r : ElectionVal P) (party : String) : Py (Dict P Num) := do
  let c ← r.totalsForParty.get party
  getPercents c r.totals

/-- `percent(party, region)` (updaters/election.py:276-289). -/
def percent (r : ElectionVal P) (party : String) (region : P) : Py Num := do
  let d ← r.percentsForParty party
  d.get region

/-- `counts(party)` / `votes(party)` (updaters/election.py:321-343). -/
def counts (r : ElectionVal P) (party : String) : Py (List Num) :=
  r.regions.mapM (fun region => do
    let c ← r.totalsForParty.get party
    c.get region)

/-- `percents(party)` (updaters/election.py:294-303). -/
def percents (r : ElectionVal P) (party : String) : Py (List Num) :=
  r.regions.mapM (fun region => r.percent party region)

/-- `percent(party)` without region (updaters/election.py:290-292). -/
def percentOverall (r : ElectionVal P) (party : String) : Py Num := do
  let c ← r.counts party
  let t ← r.regions.mapM (fun region => r.totals.get region)
  Num.div c.sum t.sum

/-- `total_votes()` (updaters/election.py:362-367). -/
def totalVotes (r : ElectionVal P) : Num := r.totals.values.sum

/-- `won(party, region)` (updaters/election.py:345-360): `all(...)` stops at the first opponent not beaten. -/
def won (r : ElectionVal P) (parties : List String) (party : String) (region : P) : Py Bool :=
  (parties.filter (fun o => o ≠ party)).foldlM (fun (ok : Bool) opponent =>
    if ok then do
      let c ← r.totalsForParty.get party
      let x ← c.get region
      let c' ← r.totalsForParty.get opponent
      let y ← c'.get region
      return Num.gt x y
    else return false) true

/-- `seats(party)` / `wins(party)` (updaters/election.py:254-274). -/
def seats (r : ElectionVal P) (parties : List String) (party : String) : Py ℕ := do
  let ws ← r.regions.mapM (fun region => r.won parties party region)
  return (ws.filter id).length

end ElectionVal

end GC

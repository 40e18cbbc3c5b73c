import Verif.Model.Assignment

/-!
# The views of an assignment: the rest of `gerrychain/partition/assignment.py`

`Assignment` is a `collections.abc.Mapping`, which supplies `__contains__`, `get` and `__eq__`.
-/

set_option autoImplicit false

namespace GC

variable {V P : Type} [LinearOrder V] [DecidableEq P]

/-- `items()` (partition/assignment.py:88-92) -/
def Assignment.items (a : Assignment V P) : List (V × P) := a.mapping.entries

/-- `keys()` and `__iter__` (partition/assignment.py:60-61, 94-95) -/
def Assignment.nodeKeys (a : Assignment V P) : List V := a.mapping.keys

/-- `values()` (partition/assignment.py:97-98) -/
def Assignment.partValues (a : Assignment V P) : List P := a.mapping.values

/-- `__getitem__` (partition/assignment.py:66-67) -/
def Assignment.getitem (a : Assignment V P) (v : V) : Py P := a.mapping.get v

/-- `Mapping.__contains__` (for the class at partition/assignment.py:9): `self[key]` does not raise `KeyError` -/
def Assignment.contains (a : Assignment V P) (v : V) : Bool :=
  match a.getitem v with
  | .ok _ => true
  | .error _ => false

/-- equality of dictionaries (for partition/assignment.py:9): the same number of items, and those of the one are in the other -/
def dictEq {K W : Type} [DecidableEq K] [DecidableEq W] (d e : Dict K W) : Bool :=
  decide (d.entries.length = e.entries.length) && d.entries.all (fun x => decide (e.get? x.1 = some x.2))

/-- `Mapping.__eq__` (for the class at partition/assignment.py:9): `dict(self.items()) == dict(other.items())` -/
def Assignment.eq (a b : Assignment V P) : Bool := dictEq a.mapping b.mapping

/-- `to_series()` (partition/assignment.py:117-125): the rows of the `pandas.Series`, district after district; `pandas.concat` raises `ValueError` for an empty list.
Simplified: the nodes of a district come in sorted order. -/
def Assignment.toSeries (a : Assignment V P) : Py (List (V × P)) :=
  if a.parts.entries.isEmpty then .error .valueError
  else .ok (a.parts.entries.flatMap (fun e => (iter e.2).map (fun v => (v, e.1))))

/-- `to_dict()` (partition/assignment.py:127-132) -/
def Assignment.toDict (a : Assignment V P) : Dict V P := a.mapping

/-- `assignment.to_dict()[v] = p`: `to_dict` returns the dictionary of the assignment itself (partition/assignment.py:132), so this changes the assignment -/
def Assignment.writeDict (a : Assignment V P) (v : V) (p : P) : Assignment V P := { a with mapping := a.toDict.set v p }

end GC

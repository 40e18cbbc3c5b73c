import Verif.Py

/-!
# Attributes of a `Partition` and of a `FrozenGraph` (gerrychain/partition/partition.py, gerrychain/graph/graph.py)

How python looks up `partition.name`, and what `hasattr`, `dict`, `in`, `copy` and `pickle` make of the two methods `__getattr__` and `__getitem__`.
-/

set_option linter.unusedSectionVars false
set_option autoImplicit false

namespace GC

variable {A : Type}

/-- a key between the brackets of `partition[key]` (partition/partition.py:197): a string, or a number when python iterates -/
inductive PyKey where
  | str (s : String)
  | num (n : ℕ)
deriving DecidableEq

/-- A `Partition` (partition/partition.py:27-37) as far as its attributes go: the slots that are set, with `_cache` and `updaters` apart.  Values are of any type;
an updater is the value it computes or the exception it raises.  Simplified: updaters have no other effect than their own cache entry (Model/Heap has this), and
no attributes besides the slots are set by the user. -/
structure PartObj (A : Type) where
  slots : Dict String A
  cache : Option (Dict PyKey A)
  updaters : Option (Dict PyKey (Py A))

/-- `Partition.__new__(Partition)` (partition/partition.py:27-37): no slot is set -/
def PartObj.blank : PartObj A := ⟨.empty, none, none⟩

/-- what `Partition.__init__` leaves behind (partition/partition.py:40-65): the slots, an empty cache and the updaters -/
def PartObj.fresh (slots : Dict String A) (updaters : Dict PyKey (Py A)) : PartObj A := ⟨slots, some .empty, some updaters⟩

/-- `__slots__` (partition/partition.py:27-37) without `_cache` and `updaters` -/
def slotNames : List String := ["graph", "subgraphs", "assignment", "parent", "flips", "flows", "edge_flows"]

/-- the names defined in the body of the class (partition/partition.py:27-300), without those with two underscores -/
def classNames : List String :=
  ["default_updaters", "from_random_assignment", "_first_time", "_from_parent", "flip", "crosses_parts", "keys", "parts", "plot", "from_districtr_file"]

/-- `Partition.__getitem__(key)` (partition/partition.py:197-210).  `self._cache` and `self.updaters` are attributes themselves: if the slot is not set, python
calls `__getattr__` (lines 212-213), that is `self["_cache"]` or `self["updaters"]`.  `limit` is the recursion limit. -/
def partItem : ℕ → PyKey → M (PartObj A) A
  | 0, _ => M.raise .recursionError
  | limit + 1, key => fun o => match o.cache with
    | none => match partItem limit (.str "_cache") o with
      | (.error e, o') => (.error e, o')
      | (.ok _, o') => (.error .typeError, o')
    | some c => match c.get? key with
      | some v => (.ok v, o)
      | none => match o.updaters with
        | none => match partItem limit (.str "updaters") o with
          | (.error e, o') => (.error e, o')
          | (.ok _, o') => (.error .typeError, o')
        | some u => match u.get? key with
          | none => (.error .keyError, o)
          | some (.error e) => (.error e, o)
          | some (.ok v) => (.ok v, { o with cache := some (c.set key v) })

/-- `partition.name` for a slot (partition/partition.py:27-37, 212-213) -/
def partSlot (limit : ℕ) (name : String) : M (PartObj A) A := fun o => match o.slots.get? name with
  | some v => (.ok v, o)
  | none => partItem limit (.str name) o

/-- `partition.parts` (partition/partition.py:212-220): the property asks for `self.assignment`, and `partsOf` is its attribute `parts`; an `AttributeError` in the
property leads to `__getattr__` -/
def partParts (partsOf : A → A) (limit : ℕ) : M (PartObj A) A := fun o => match partSlot limit "assignment" o with
  | (.ok a, o') => (.ok (partsOf a), o')
  | (.error .attributeError, o') => partItem limit (.str "parts") o'
  | (.error e, o') => (.error e, o')

/-- `partition.name` (partition/partition.py:27-37, 212-220).  `classAttr` gives the methods.  `_cache` and `updaters` are left out. -/
def partAttr (partsOf : A → A) (classAttr : String → A) (limit : ℕ) (name : String) : M (PartObj A) A := fun o =>
  if name ∈ slotNames then partSlot limit name o
  else if name = "parts" then partParts partsOf limit o
  else if name ∈ classNames then (.ok (classAttr name), o)
  else partItem limit (.str name) o

/-- `hasattr(partition, name)` (partition/partition.py:212-213): only `AttributeError` means no -/
def partHasAttr (partsOf : A → A) (classAttr : String → A) (limit : ℕ) (name : String) : M (PartObj A) Bool := fun o =>
  match partAttr partsOf classAttr limit name o with
  | (.ok _, o') => (.ok true, o')
  | (.error .attributeError, o') => (.ok false, o')
  | (.error e, o') => (.error e, o')

/-- the loop of `dict(partition)` (partition/partition.py:197-216): python finds `keys` and asks for `partition[key]` for each of them -/
def partDictLoop (limit : ℕ) : List PyKey → Dict PyKey A → M (PartObj A) (Dict PyKey A)
  | [], acc => M.pure acc
  | k :: ks, acc => M.bind (partItem limit k) fun v => partDictLoop limit ks (acc.set k v)

/-- `dict(partition)` (partition/partition.py:197-216) for a partition whose slots are set -/
def partDict (limit : ℕ) : M (PartObj A) (Dict PyKey A) := fun o => match o.updaters with
  | none => (.error .recursionError, o)
  | some u => partDictLoop limit u.keys .empty o

/-- The loop of `key in partition` and of `for x in partition`: there is no `__iter__`, so python asks for `partition[0]`, `partition[1]`, … until `IndexError`
(partition/partition.py:197-210).  `fuel` bounds the number of rounds. -/
def partSequence (limit : ℕ) : ℕ → ℕ → List A → M (PartObj A) (List A)
  | 0, _, acc => M.pure acc
  | fuel + 1, i, acc => fun o => match partItem limit (.num i) o with
    | (.ok v, o') => partSequence limit fuel (i + 1) (acc ++ [v]) o'
    | (.error .indexError, o') => (.ok acc, o')
    | (.error e, o') => (.error e, o')

/-- The second half of `copy.copy`, `copy.deepcopy` and `pickle.loads` for a `Partition` (partition/partition.py:27-37, 212-213): python makes the object without
calling `__init__` and asks whether it has `__setstate__` before it sets the slots. -/
def partRebuild (limit : ℕ) (state : PartObj A) : Py (PartObj A) :=
  match partItem limit (.str "__setstate__") (PartObj.blank : PartObj A) with
  | (.error .attributeError, _) => .ok state
  | (.error e, _) => .error e
  | (.ok _, _) => .error .typeError

/-- `copy.copy(partition)` (partition/partition.py:27-37, 212-213).  Before python 3.11, `object` has no `__getstate__` and the partition is asked for it. -/
def partCopy (before311 : Bool) (limit : ℕ) (o : PartObj A) : Py (PartObj A) :=
  if before311 then match partItem limit (.str "__getstate__") o with
    | (.error .attributeError, _) => partRebuild limit o
    | (.error e, _) => .error e
    | (.ok _, _) => .error .typeError
  else partRebuild limit o

/-- `copy.deepcopy(partition)` (partition/partition.py:27-37, 212-213): it first asks the partition for `__deepcopy__`.  The copies of the slots are left out. -/
def partDeepCopy (before311 : Bool) (limit : ℕ) (o : PartObj A) : Py (PartObj A) :=
  match partItem limit (.str "__deepcopy__") o with
  | (.error .attributeError, o') => partCopy before311 limit o'
  | (.error e, _) => .error e
  | (.ok _, _) => .error .typeError

/-- A `FrozenGraph` (graph/graph.py:527-542) as far as its attributes go: the values of its own attributes, and those of `self.graph` if this slot is set -/
structure FrozenObj (A : Type) where
  own : Dict String A
  graph : Option (Dict String A)

/-- `FrozenGraph.__getattribute__(name)` (graph/graph.py:547-551) for another name than `graph`.  If the slot `graph` is not set, `self.graph` comes back here. -/
def frozenAttr : ℕ → FrozenObj A → String → Py A
  | 0, _, _ => .error .recursionError
  | limit + 1, o, name => match o.own.get? name with
    | some v => .ok v
    | none => match o.graph with
      | none => frozenAttr limit o "graph"
      | some g => match g.get? name with
        | some v => .ok v
        | none => .error .attributeError

end GC

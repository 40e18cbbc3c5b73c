import Verif.Py
import Mathlib.Data.Int.Cast.Basic

/-!
# Validator and MarkovChain

Model of `gerrychain/constraints/validity.py` (class `Validator`) and `gerrychain/chain.py`.

`S` is the type of the whole mutable world (partition objects, caches, random generator, mutable constraints, ...) and `R`
the type of references to partitions.  Proposals, constraints and acceptance functions are arbitrary computations on that
world (`R → M S α`), so random draws are part of the world.  Simplified: the callables do not write the attributes of the
chain object itself.
-/

set_option linter.unusedSectionVars false
set_option autoImplicit false

namespace GC

/-- What a constraint may return: a python bool, a numpy bool, or any other object (with its truth value). -/
inductive CVal
  | bool (b : Bool) | numpyBool (b : Bool) | other (truthy : Bool)
  deriving DecidableEq, Repr

/-- `bool(x)` -/
def CVal.truthy : CVal → Bool
  | .bool b => b
  | .numpyBool b => b
  | .other b => b

/-- A constraint: a callable together with its `__name__` attribute, which some callables (`functools.partial`, instances
of user classes) do not have. -/
structure Constraint (S R : Type) where
  call : R → M S CVal
  name : Option String

variable {S R : Type}

/-- `Validator.__call__` (constraints/validity.py:34-55). -/
def validator (p : R) : List (Constraint S R) → M S Bool
  | [] => fun s => (.ok true, s)
  | c :: cs => fun s =>
    match c.call p s with
    | (.error e, s') => (.error e, s')
    | (.ok (.bool false), s') => (.ok false, s')
    | (.ok (.numpyBool false), s') => (.ok false, s')
    | (.ok (.bool true), s') => validator p cs s'
    | (.ok (.numpyBool true), s') => validator p cs s'
    | (.ok (.other _), s') => (.error .typeError, s')

/-- `[constraint for constraint in is_valid.constraints if not constraint(initial_state)]` (chain.py:84-88 and 138-142). -/
def failedConstraints (p : R) : List (Constraint S R) → M S (List (Constraint S R))
  | [] => fun s => (.ok [], s)
  | c :: cs => fun s =>
    match c.call p s with
    | (.error e, s') => (.error e, s')
    | (.ok v, s') => match failedConstraints p cs s' with
      | (.error e, s'') => (.error e, s'')
      | (.ok l, s'') => (.ok (if v.truthy then l else c :: l), s'')

/-- `",".join([f.__name__ for f in failed])` followed by `raise ValueError` (chain.py:89-93, 143-147): a failed constraint
without `__name__` raises `AttributeError` instead. -/
def raiseFailed (failed : List (Constraint S R)) : PyErr :=
  if failed.all (fun c => c.name.isSome) then .valueError else .attributeError

/-- The immutable arguments of a chain. `erase` is `state.parent = None`. -/
structure ChainCfg (S R : Type) where
  proposal : R → M S R
  accept : R → M S Bool
  erase : R → S → S
  totalSteps : ℤ
  initial : R

/-- The mutable attributes of a `MarkovChain`.  `counter = none` before the first `iter()` (the attribute is unset). -/
structure Chain (S R : Type) where
  isValid : List (Constraint S R)
  counter : Option ℕ
  state : R

/-- The check shared by `__init__` (chain.py:77-93) and the `constraints` setter (chain.py:131-147). -/
def checkInitial (p : R) (cs : List (Constraint S R)) : M S Unit := fun s =>
  match validator p cs s with
  | (.error e, s') => (.error e, s')
  | (.ok true, s') => (.ok (), s')
  | (.ok false, s') => match failedConstraints p cs s' with
    | (.error e, s'') => (.error e, s'')
    | (.ok failed, s'') => (.error (raiseFailed failed), s'')

/-- `MarkovChain.__init__` (chain.py:51-101). -/
def Chain.init (c : ChainCfg S R) (cs : List (Constraint S R)) : M S (Chain S R) := fun s =>
  match checkInitial c.initial cs s with
  | (.error e, s') => (.error e, s')
  | (.ok (), s') => (.ok ⟨cs, none, c.initial⟩, s')

/-- The setter `chain.constraints = cs` (chain.py:114-150): result, chain afterwards, world afterwards. -/
def Chain.setConstraints (c : ChainCfg S R) (ch : Chain S R) (cs : List (Constraint S R)) (s : S) :
    Py Unit × Chain S R × S :=
  match checkInitial c.initial cs s with
  | (.error e, s') => (.error e, ch, s')
  | (.ok (), s') => (.ok (), { ch with isValid := cs }, s')

/-- `__iter__` (chain.py:152-164). -/
def Chain.iter (c : ChainCfg S R) (ch : Chain S R) : Chain S R := { ch with counter := some 0, state := c.initial }

/-- The `while` loop of `__next__` (chain.py:184-196).  `none`: not finished within `fuel` proposals. -/
def Chain.loop (c : ChainCfg S R) (ch : Chain S R) (counter : ℕ) : ℕ → S → Option (Py R × Chain S R × S)
  | 0, _ => none
  | fuel + 1, s =>
    if (counter : ℤ) < c.totalSteps then
      match c.proposal ch.state s with
      | (.error e, s1) => some (.error e, ch, s1)
      | (.ok q, s1) =>
        match validator q ch.isValid (c.erase ch.state s1) with
        | (.error e, s3) => some (.error e, ch, s3)
        | (.ok false, s3) => Chain.loop c ch counter fuel s3
        | (.ok true, s3) =>
          match c.accept q s3 with
          | (.error e, s4) => some (.error e, ch, s4)
          | (.ok true, s4) => some (.ok q, { ch with state := q, counter := some (counter + 1) }, s4)
          | (.ok false, s4) => some (.ok ch.state, { ch with counter := some (counter + 1) }, s4)
    else some (.error .stopIteration, ch, s)

/-- `__next__` (chain.py:166-196); before the first `iter()` the attribute `counter` does not exist. -/
def Chain.next (c : ChainCfg S R) (ch : Chain S R) (fuel : ℕ) (s : S) : Option (Py R × Chain S R × S) :=
  match ch.counter with
  | none => some (.error .attributeError, ch, s)
  | some 0 => some (.ok ch.state, { ch with counter := some 1 }, s)
  | some (k + 1) => Chain.loop c ch (k + 1) fuel s

/-- `__len__` (chain.py:198-205); python raises `ValueError` for a negative length. -/
def Chain.len (c : ChainCfg S R) : Py ℕ := if c.totalSteps < 0 then .error .valueError else .ok c.totalSteps.toNat

/-- Calling `next` `calls` times: the list of results, the chain and the world afterwards. An exception is caught by the
caller and the calls go on. -/
def Chain.calls (c : ChainCfg S R) (fuel : ℕ) : ℕ → Chain S R → S → Option (List (Py R) × Chain S R × S)
  | 0, ch, s => some ([], ch, s)
  | n + 1, ch, s => match Chain.next c ch fuel s with
    | none => none
    | some (r, ch', s') => match Chain.calls c fuel n ch' s' with
      | none => none
      | some (rs, ch'', s'') => some (r :: rs, ch'', s'')

/-- `list(chain)`: `for state in chain` collecting the states; `StopIteration` ends the loop, other exceptions propagate.
`body` bounds the number of iterations, `fuel` the number of proposals per iteration. -/
def Chain.collect (c : ChainCfg S R) (fuel : ℕ) : ℕ → Chain S R → S → Option (Py (List R) × Chain S R × S)
  | 0, _, _ => none
  | n + 1, ch, s => match Chain.next c ch fuel s with
    | none => none
    | some (.error .stopIteration, ch', s') => some (.ok [], ch', s')
    | some (.error e, ch', s') => some (.error e, ch', s')
    | some (.ok x, ch', s') => match Chain.collect c fuel n ch' s' with
      | none => none
      | some (.error e, ch'', s'') => some (.error e, ch'', s'')
      | some (.ok xs, ch'', s'') => some (.ok (x :: xs), ch'', s'')

/-- `list(chain)` including the call of `iter`. -/
def Chain.list (c : ChainCfg S R) (fuel body : ℕ) (ch : Chain S R) (s : S) : Option (Py (List R) × Chain S R × S) :=
  Chain.collect c fuel body (ch.iter c) s

end GC

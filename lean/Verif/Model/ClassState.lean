import Verif.Py

/-!
# Whose dictionary are the updaters?

Model of how partitions get their dictionary `updaters` (partition/partition.py:40, 59-65, 122-151, 153-158; grid.py:46-56, 95-117).  Dictionaries
are objects: the class attributes `default_updaters`, the dictionaries made by the user and those made by `_first_time`.  A class is
represented by the class in its `__mro__` that defines `default_updaters` (`Partition`, `GeographicPartition`, `Grid`, or classes of the user).
Updater functions are values of an arbitrary type `F`.
-/

set_option linter.unusedSectionVars false
set_option autoImplicit false

namespace GC

/-- A reference to a dictionary of updaters: the attribute `default_updaters` of a class, a dictionary made by the user, or the dictionary that
`_first_time` made for the partition with this number (partition/partition.py:144) -/
inductive DRef
  | cls (c : ℕ) | user (i : ℕ) | inst (p : ℕ)
  deriving DecidableEq

/-- What a partition remembers: its class, the argument `use_default_updaters` of the construction it descends from, and its attribute `updaters`
(slot at partition/partition.py:31) -/
structure PRec where
  cls : ℕ
  useDefault : Bool
  updaters : DRef
  deriving DecidableEq

/-- All dictionaries, the number of dictionaries made by the user, and the partitions in order of creation -/
structure CState (F : Type) where
  dicts : DRef → Dict String F
  users : ℕ
  parts : List PRec

variable {F : Type}

/-- `d.update(e)` on the dictionary `r` -/
def CState.updateDict (s : CState F) (r : DRef) (e : Dict String F) : CState F :=
  { s with dicts := fun r' => if r' = r then (s.dicts r).update e else s.dicts r' }

/-- `_first_time` (partition/partition.py:122-151).  `valid` tells whether graph and assignment pass the checks at lines 123-135, which come before
the updaters; an exception leaves the dictionaries as they are. -/
def firstTime (s : CState F) (cls : ℕ) (updaters : Option DRef) (useDefault valid : Bool) : CState F :=
  if valid then
    let passed := match updaters with
      | none => .empty
      | some r => s.dicts r
    if useDefault then
      let s := s.updateDict (.cls cls) passed
      { s with parts := s.parts ++ [⟨cls, true, .cls cls⟩] }
    else
      let r : DRef := .inst s.parts.length
      let s := { s with dicts := fun r' => if r' = r then Dict.empty.update passed else s.dicts r' }
      { s with parts := s.parts ++ [⟨cls, false, r⟩] }
  else s

/-- `Grid.__init__` with `dimensions` (grid.py:95-112); a `Grid` always uses the default updaters. -/
def gridInit (s : CState F) (cls : ℕ) (updaters : Option DRef) (valid : Bool) : CState F :=
  let useOwn : CState F × DRef := match updaters with
    | some r => if (s.dicts r).entries.isEmpty then
        ({ s with dicts := fun r' => if r' = .user s.users then .empty else s.dicts r', users := s.users + 1 }, .user s.users)
      else (s, r)
    | none => ({ s with dicts := fun r' => if r' = .user s.users then .empty else s.dicts r', users := s.users + 1 }, .user s.users)
  let s := useOwn.1.updateDict useOwn.2 (useOwn.1.dicts (.cls cls))
  firstTime s cls (some useOwn.2) true valid

/-- `partition.flip(...)`: `self.updaters = parent.updaters` (partition/partition.py:153-158, 184-185) -/
def flipRec (s : CState F) (p : ℕ) : CState F :=
  match s.parts[p]? with
  | some r => { s with parts := s.parts ++ [r] }
  | none => s

/-- What a program can do: write a dictionary display, construct a partition, construct a grid, flip a partition -/
inductive COp (F : Type)
  | newDict (d : Dict String F)
  | construct (cls : ℕ) (updaters : Option DRef) (useDefault valid : Bool)
  | grid (cls : ℕ) (updaters : Option DRef) (valid : Bool)
  | flip (p : ℕ)

/-- one operation -/
def COp.step (s : CState F) : COp F → CState F
  | .newDict d => { s with dicts := fun r => if r = .user s.users then d else s.dicts r, users := s.users + 1 }
  | .construct cls updaters useDefault valid => firstTime s cls updaters useDefault valid
  | .grid cls updaters valid => gridInit s cls updaters valid
  | .flip p => flipRec s p

/-- a program -/
def crun (s : CState F) (ops : List (COp F)) : CState F := ops.foldl COp.step s

/-- `partition.updaters` (as `partition.keys()` and `partition[key]` use it, partition/partition.py:207-214) -/
def CState.updatersOf (s : CState F) (p : ℕ) : Option (Dict String F) := (s.parts[p]?).map (fun r => s.dicts r.updaters)

/-- After `import gerrychain`: only the class attributes exist. -/
def classInit (defaults : ℕ → Dict String F) : CState F :=
  { dicts := fun r => match r with | .cls c => defaults c | _ => .empty, users := 0, parts := [] }

end GC

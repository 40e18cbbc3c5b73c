import Verif.Model.Chain

/-!
# Specification vocabulary for chains
-/

set_option linter.unusedSectionVars false
set_option autoImplicit false

namespace GC

variable {S R : Type}

/-- A boolean result, python or numpy. -/
def CVal.IsBool (v : CVal) (b : Bool) : Prop := v = .bool b ∨ v = .numpyBool b

/-- Called one after the other from world `s`, all constraints return `True`; the world is then `s'`. -/
inductive AllPass (p : R) : List (Constraint S R) → S → S → Prop
  | nil (s : S) : AllPass p [] s s
  | cons {c : Constraint S R} {cs : List (Constraint S R)} {v : CVal} {s s1 s' : S} :
      c.call p s = (.ok v, s1) → v.IsBool true → AllPass p cs s1 s' → AllPass p (c :: cs) s s'

/-- Zero or more proposals from `st`, each returned and each refused by the constraints `cs`. -/
inductive Rejections (c : ChainCfg S R) (cs : List (Constraint S R)) (st : R) : S → S → Prop
  | refl (s : S) : Rejections c cs st s s
  | step {s s1 s3 s' : S} {q : R} : c.proposal st s = (.ok q, s1) →
      validator q cs (c.erase st s1) = (.ok false, s3) → Rejections c cs st s3 s' → Rejections c cs st s s'

/-- From `st` the chain proposed `q` in world `s`, the constraints accepted it, the acceptance function returned `b`. -/
structure Proposed (c : ChainCfg S R) (cs : List (Constraint S R)) (st q : R) (b : Bool) (s s' : S) : Prop where
  ex : ∃ s1 s3, c.proposal st s = (.ok q, s1) ∧ validator q cs (c.erase st s1) = (.ok true, s3) ∧
    c.accept q s3 = (.ok b, s')

/-- No callable of the chain raises `StopIteration` (python would end a `for` loop on it). -/
structure NoStop (c : ChainCfg S R) (cs : List (Constraint S R)) : Prop where
  proposal : ∀ r s s', c.proposal r s ≠ (.error .stopIteration, s')
  accept : ∀ r s s', c.accept r s ≠ (.error .stopIteration, s')
  constraint : ∀ con ∈ cs, ∀ r s s', con.call r s ≠ (.error .stopIteration, s')

end GC

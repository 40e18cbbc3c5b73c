import Verif.Props.SharedBound

/-!
# Self-configuring bounds that are configured to zero (C89)
-/

set_option linter.unusedSectionVars false
set_option autoImplicit false

namespace GC

section
variable {K X R : Type} [Field K] [LinearOrder K] [IsStrictOrderedRing K]

/-- **C89 is violated by a bound of zero**: `not self.bound` holds for it as for `None`, so the next plan is never compared with it.  Every plan whose
value is a number is accepted, and its own value (minus ε) becomes the bound. -/
theorem C89_zero_violation (f : R → M X (Option K)) (v : R → Option K) (hf : ∀ r x, (f r x).1 = .ok (v r)) (name : String) (x : X) (r : R) (w : K)
    (hw : v r = some w) :
    ((selfUpperCon f name).call r (x, some (some 0))).1 = .ok (.bool true) ∧
    ((selfUpperCon f name).call r (x, some (some 0))).2.2 = some (some w) ∧
    ∀ ε : K, 0 ≤ ε → ((selfLowerCon f ε name).call r (x, some (some 0))).1 = .ok (.bool true) ∧
      ((selfLowerCon f ε name).call r (x, some (some 0))).2.2 = some (some (w - ε)) := by
  have hfx : ∀ y, f r y = (.ok (some w), (f r y).2) := fun y => Prod.ext (by rw [hf, hw]) rfl
  have hu : unset (some (some (0 : K))) = true := by simp [unset]
  have up : (selfUpperCon f name).call r (x, some (some 0)) = (.ok (.bool true), ((f r (f r x).2).2, some (some w))) := by
    unfold selfUpperCon
    simp only [hu, if_true]
    rw [hfx x]
    simp only
    rw [hfx (f r x).2]
    simp [nanLe]
  refine ⟨by rw [up], by rw [up], fun ε hε => ?_⟩
  have lo : (selfLowerCon f ε name).call r (x, some (some 0)) = (.ok (.bool true), ((f r (f r x).2).2, some (some (w - ε)))) := by
    unfold selfLowerCon
    simp only [hu, if_true]
    rw [hfx x]
    simp only
    rw [hfx (f r x).2]
    simp [nanLe, hε]
  exact ⟨by rw [lo], by rw [lo]⟩

end

/-- `SelfConfiguringUpperBound` on plans that are represented by their values -/
def exUpper : Constraint (List ℚ × Option (Option ℚ)) ℚ := selfUpperCon (fun r x => (.ok (some r), x)) "upper"

/-- `list(MarkovChain(..., [exUpper], ...))` for the given initial plan, in the given world: the states, or the exception -/
def exRunUpper (initial : ℚ) (steps : ℤ) (s : List ℚ × Option (Option ℚ)) : Option (Py (List ℚ)) × (List ℚ × Option (Option ℚ)) :=
  match Chain.init (exTapeCfg initial steps).beside [exUpper] s with
  | (.error e, s') => (some (.error e), s')
  | (.ok ch, s') => match ch.list (exTapeCfg initial steps).beside 10 10 s' with
    | none => (none, s')
    | some (r, _, s'') => (some r, s'')

/-- **C89 is violated** in the first chain of a process already, so the exception for zero in `C89_first_chain_partial` is needed.  The chain starts
at value 0, its upper bound; it moves to 5 and then refuses 6 but not 3, being judged by 5.  A lower bound that is configured to zero is lost likewise:
the chain starts at 1/20 and moves to -1. -/
theorem C89_first_chain_violation :
    exRunUpper 0 3 ([5, 6, 3], none) = (some (.ok [0, 5, 3]), ([], some (some 5))) ∧
    exRunLower (1 / 20) 2 ([-1], none) = (some (.ok [1 / 20, -1]), ([], some (some (-21 / 20)))) := by
  decide +kernel

/-- the hypotheses of `C89_zero_violation` can be met -/
example : (exUpper.call 5 ([], some (some 0))).1 = .ok (.bool true) :=
  (C89_zero_violation (fun r x => (.ok (some r), x)) some (fun _ _ => rfl) "upper" [] (5 : ℚ) 5 rfl).1

end GC

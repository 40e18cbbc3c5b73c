import Verif.Spec.Eigh
import Mathlib.Analysis.Matrix.Spectrum
import Mathlib.Data.Fin.Tuple.Sort

/-!
# Symmetric matrices have an eigenvalue decomposition
-/

set_option linter.unusedSectionVars false
set_option autoImplicit false

namespace GC

/-- the spectral theorem in the form of `IsEigh` -/
theorem exists_isEigh {n : ℕ} (A : Matrix (Fin n) (Fin n) ℝ) (hA : ∀ i j, A i j = A j i) : ∃ U vals, IsEigh A U vals := by
  have hH : A.IsHermitian := by
    ext i j
    rw [Matrix.conjTranspose_apply, star_trivial, hA]
  set σ := Tuple.sort hH.eigenvalues with hσ
  refine ⟨Matrix.of fun i k => hH.eigenvectorBasis (σ k) i, fun k => hH.eigenvalues (σ k), ⟨Tuple.monotone_sort hH.eigenvalues, ?_, ?_⟩⟩
  · ext i k
    rw [Matrix.mul_diagonal]
    have := congrFun (hH.mulVec_eigenvectorBasis (σ k)) i
    rw [Matrix.mulVec_eq_sum] at this
    simp only [Finset.sum_apply, Pi.smul_apply, Matrix.transpose_apply, smul_eq_mul, MulOpposite.smul_eq_mul_unop,
      MulOpposite.unop_op] at this
    rw [Matrix.mul_apply]
    refine Eq.trans ?_ (this.trans (mul_comm _ _))
    exact Finset.sum_congr rfl fun j _ => rfl
  · ext k l
    rw [Matrix.mul_apply, Matrix.one_apply]
    have := orthonormal_iff_ite.1 hH.eigenvectorBasis.orthonormal (σ k) (σ l)
    rw [PiLp.inner_apply] at this
    simp only [Matrix.transpose_apply, Matrix.of_apply]
    refine Eq.trans ?_ (this.trans ?_)
    · exact Finset.sum_congr rfl fun j _ => by
        simp [mul_comm]
    · by_cases h : k = l
      · simp [h]
      · rw [if_neg h, if_neg (fun hh => h (σ.injective hh))]

end GC

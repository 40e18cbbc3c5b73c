import Mathlib.Data.Matrix.Mul
import Mathlib.Data.Real.Basic

/-!
# Eigenvalue decompositions

What `numpy.linalg.eigh` (proposals/spectral_proposals.py:44) promises.
-/

set_option linter.unusedSectionVars false
set_option autoImplicit false

namespace GC

/-- What `numpy.linalg.eigh` computes for a symmetric matrix, in exact arithmetic: the eigenvalues in ascending order, and orthonormal
eigenvectors as the columns of `U` (library function called in proposals/spectral_proposals.py:44). -/
structure IsEigh {n : ℕ} (A U : Matrix (Fin n) (Fin n) ℝ) (vals : Fin n → ℝ) : Prop where
  ascending : Monotone vals
  eigen : A * U = U * Matrix.diagonal vals
  orthonormal : U.transpose * U = 1

end GC

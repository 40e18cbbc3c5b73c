import Mathlib.LinearAlgebra.Matrix.Adjugate
import Mathlib.LinearAlgebra.Matrix.Determinant.Basic
import Mathlib.RingTheory.PowerSeries.Inverse
import Mathlib.Tactic.LinearCombination

/-!
# Generating functions of random walks

A step of the walk from `v` to `w` has the weight `a v w`, a power series without constant term (the power of the variable counts the steps).
`hitSeries` is the generating function of the walks that stay inside `D` and end at the first visit of `x`; it is described by its linear equations
and by a quotient of determinants.  Nothing here mentions the modelled code.
-/

set_option linter.unusedSectionVars false
set_option autoImplicit false

namespace GC

open PowerSeries Matrix

section
variable {n : Type} [Fintype n] [DecidableEq n]

/-- the identity minus the steps that stay inside `D` -/
noncomputable def killed (a : n → n → ℚ⟦X⟧) (D : Finset n) : Matrix n n ℚ⟦X⟧ :=
  fun v w => (if v = w then 1 else 0) - (if v ∈ D ∧ w ∈ D then a v w else 0)

theorem det_killed_const {a : n → n → ℚ⟦X⟧} (ha : ∀ v w, constantCoeff (a v w) = 0) (D : Finset n) :
    constantCoeff (killed a D).det = 1 := by
  rw [RingHom.map_det]
  have : (constantCoeff (R := ℚ)).mapMatrix (killed a D) = 1 := by
    ext v w
    rw [RingHom.mapMatrix_apply, Matrix.map_apply, killed, map_sub, Matrix.one_apply]
    split_ifs <;> simp [ha]
  rw [this, Matrix.det_one]

theorem det_killed_empty (a : n → n → ℚ⟦X⟧) : (killed a ∅).det = 1 := by
  have : killed a ∅ = 1 := by
    ext1 v w
    simp [killed, Matrix.one_apply]
  rw [this, Matrix.det_one]

theorem adjugate_killed (a : n → n → ℚ⟦X⟧) (D : Finset n) (x : n) :
    (killed a D).adjugate x x = (killed a (D.erase x)).det := by
  rw [Matrix.adjugate_apply]
  refine Matrix.det_eq_of_forall_row_eq_smul_add_const (fun v => if v = x then 0 else killed a D v x) x (by simp) ?_
  intro v w
  by_cases hv : v = x
  · subst hv
    rw [Matrix.updateRow_self, if_pos rfl, zero_mul, add_zero]
    simp only [killed, Finset.mem_erase, ne_eq, not_true, false_and, if_false, sub_zero, Pi.single_apply, eq_comm]
  · rw [Matrix.updateRow_ne hv, if_neg hv]
    by_cases hw : w = x
    · subst hw
      simp [killed, hv]
    · simp [killed, hv, hw, Ne.symm hw, eq_comm]

/-- the generating function of the walks in `D` to the first visit of `x` -/
theorem exists_hit {a : n → n → ℚ⟦X⟧} (ha : ∀ v w, constantCoeff (a v w) = 0) {D : Finset n} {x : n} (hx : x ∈ D) :
    ∃ κ : n → ℚ⟦X⟧, κ x = 1 ∧ (∀ v ∉ D, κ v = 0) ∧ (∀ v ∈ D, v ≠ x → κ v = ∑ w, a v w * κ w) ∧
      (1 - ∑ w, a x w * κ w) * (killed a (D.erase x)).det = (killed a D).det := by
  have hinv : (killed a (D.erase x)).det * ((killed a (D.erase x)).det)⁻¹ = 1 :=
    PowerSeries.mul_inv_cancel _ (by rw [det_killed_const ha]; exact one_ne_zero)
  set d := (killed a (D.erase x)).det with hd
  let y : n → ℚ⟦X⟧ := fun v => (killed a D).adjugate v x
  have hyx : y x = d := adjugate_killed a D x
  have heq : ∀ v, ∑ w, killed a D v w * y w = if v = x then (killed a D).det else 0 := by
    intro v
    have := congrFun (congrFun (Matrix.mul_adjugate (killed a D)) v) x
    rw [Matrix.mul_apply] at this
    rw [this, Matrix.smul_apply, Matrix.one_apply, smul_eq_mul, mul_ite, mul_one, mul_zero]
  have hrow : ∀ v, ∑ w, killed a D v w * y w = y v - ∑ w, (if v ∈ D ∧ w ∈ D then a v w else 0) * y w := by
    intro v
    simp only [killed, sub_mul, Finset.sum_sub_distrib, ite_mul, one_mul, zero_mul, Finset.sum_ite_eq, Finset.mem_univ, if_true]
  have hout : ∀ v ∉ D, y v = 0 := by
    intro v hv
    have h := heq v
    rw [hrow, if_neg (by rintro rfl; exact hv hx)] at h
    simpa [hv] using h
  have hin : ∀ v ∈ D, y v - ∑ w, a v w * y w = if v = x then (killed a D).det else 0 := by
    intro v hv
    rw [← heq v, hrow]
    congr 1
    refine Finset.sum_congr rfl (fun w _ => ?_)
    by_cases hw : w ∈ D
    · rw [if_pos ⟨hv, hw⟩]
    · rw [hout w hw, mul_zero, mul_zero]
  have hsum : ∀ v, ∑ w, a v w * (d⁻¹ * y w) = d⁻¹ * ∑ w, a v w * y w := by
    intro v
    rw [Finset.mul_sum]
    exact Finset.sum_congr rfl (fun w _ => by ring)
  refine ⟨fun v => d⁻¹ * y v, ?_, ?_, ?_, ?_⟩
  · show d⁻¹ * y x = 1
    rw [hyx, mul_comm, hinv]
  · intro v hv
    show d⁻¹ * y v = 0
    rw [hout v hv, mul_zero]
  · intro v hv hne
    have := hin v hv
    rw [if_neg hne] at this
    show d⁻¹ * y v = ∑ w, a v w * (d⁻¹ * y w)
    rw [hsum, sub_eq_zero.1 this]
  · have := hin x hx
    rw [if_pos rfl, hyx] at this
    show (1 - ∑ w, a x w * (d⁻¹ * y w)) * d = _
    rw [hsum, ← this]
    linear_combination (-(∑ w, a x w * y w)) * hinv

end

/-! ### The same for walks on a graph with given neighbourhoods -/

section
variable {V : Type} [DecidableEq V]

/-- one step from `v` to a given neighbour, all `k` neighbours being equally likely -/
noncomputable def stepSeries (k : ℕ) : ℚ⟦X⟧ := PowerSeries.C (1 / (k : ℚ)) * X

theorem constantCoeff_stepSeries (k : ℕ) : constantCoeff (stepSeries k) = 0 := by simp [stepSeries]

/-- the matrix of the steps between nodes of `U`, killed outside `D` -/
noncomputable def walkDet (U : Finset V) (N : V → Finset V) (D : Finset V) : ℚ⟦X⟧ :=
  (killed (n := U) (fun v w => if w.1 ∈ N v.1 then stepSeries (N v.1).card else 0) (D.subtype (· ∈ U))).det

variable {U : Finset V} {N : V → Finset V}

theorem walkDet_const (D : Finset V) : constantCoeff (walkDet U N D) = 1 := by
  unfold walkDet
  refine det_killed_const ?_ _
  intro v w
  split_ifs
  · exact constantCoeff_stepSeries _
  · simp

theorem walkDet_empty : walkDet U N ∅ = 1 := by
  unfold walkDet
  rw [show (∅ : Finset V).subtype (· ∈ U) = ∅ from rfl]
  exact det_killed_empty _

theorem exists_hit_on (hN : ∀ v ∈ U, N v ⊆ U) {D : Finset V} (hD : D ⊆ U) {x : V} (hx : x ∈ D) :
    ∃ κ : V → ℚ⟦X⟧, κ x = 1 ∧ (∀ v ∉ D, κ v = 0) ∧ (∀ v ∈ D, v ≠ x → κ v = stepSeries (N v).card * ∑ w ∈ N v, κ w) ∧
      (1 - stepSeries (N x).card * ∑ w ∈ N x, κ w) * walkDet U N (D.erase x) = walkDet U N D := by
  have hxs : (⟨x, hD hx⟩ : U) ∈ D.subtype (· ∈ U) := Finset.mem_subtype.2 hx
  obtain ⟨κ, h1, h2, h3, h4⟩ := exists_hit (n := U)
    (a := fun v w => if w.1 ∈ N v.1 then stepSeries (N v.1).card else 0) (by
      intro v w
      split_ifs
      · exact constantCoeff_stepSeries _
      · simp) hxs
  have hsum : ∀ (v : U), ∑ w : U, (if w.1 ∈ N v.1 then stepSeries (N v.1).card else 0) * κ w =
      stepSeries (N v.1).card * ∑ w ∈ N v.1, (if h : w ∈ U then κ ⟨w, h⟩ else 0) := by
    intro v
    have e1 : ∑ w ∈ N v.1, (if h : w ∈ U then κ ⟨w, h⟩ else 0) = ∑ w ∈ U, if w ∈ N v.1 then (if h : w ∈ U then κ ⟨w, h⟩ else 0) else 0 := by
      rw [← Finset.sum_filter]
      refine Finset.sum_congr ?_ (fun _ _ => rfl)
      ext w
      rw [Finset.mem_filter]
      exact ⟨fun h => ⟨hN v.1 v.2 h, h⟩, fun h => h.2⟩
    rw [e1, ← Finset.sum_coe_sort U, Finset.mul_sum]
    refine Finset.sum_congr rfl (fun w _ => ?_)
    rw [dif_pos w.2]
    split_ifs with hw
    · rfl
    · rw [zero_mul, mul_zero]
  have herase : (D.erase x).subtype (· ∈ U) = (D.subtype (· ∈ U)).erase ⟨x, hD hx⟩ := by
    ext w
    rw [Finset.mem_subtype, Finset.mem_erase, Finset.mem_erase, Finset.mem_subtype, ne_eq, ne_eq, Subtype.ext_iff]
  refine ⟨fun w => if h : w ∈ U then κ ⟨w, h⟩ else 0, ?_, ?_, ?_, ?_⟩
  · beta_reduce
    rw [dif_pos (hD hx), h1]
  · intro v hv
    beta_reduce
    split_ifs with hU
    · exact h2 _ (fun h => hv (Finset.mem_subtype.1 h))
    · rfl
  · intro v hv hne
    have := h3 ⟨v, hD hv⟩ (Finset.mem_subtype.2 hv) (fun h => hne (congrArg Subtype.val h))
    rw [hsum] at this
    beta_reduce
    rw [dif_pos (hD hv), this]
  · have := h4
    rw [hsum] at this
    unfold walkDet
    rw [herase]
    exact this

end

end GC

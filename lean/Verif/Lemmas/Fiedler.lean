import Verif.Spec.Eigh
import Mathlib.Algebra.Order.BigOperators.Group.Finset
import Mathlib.Algebra.Order.Ring.Finset
import Mathlib.Data.Matrix.Mul
import Mathlib.LinearAlgebra.Matrix.NonsingularInverse
import Mathlib.Data.Real.Basic
import Mathlib.Tactic.Linarith
import Mathlib.Tactic.LinearCombination
import Mathlib.Tactic.Ring
import Mathlib.Tactic.FieldSimp
import Mathlib.Tactic.Positivity

/-!
# Second eigenvectors of weighted Laplacians

Fiedler's theorem on the nodal domains of a second eigenvector.  `W` is a symmetric matrix of weights, `d` positive weights of the nodes.
-/

set_option linter.unusedSectionVars false
set_option autoImplicit false

namespace GC

variable {ι : Type} [Fintype ι] [DecidableEq ι]

/-- the Laplacian of the weights, applied to a function -/
def lapAt (W : ι → ι → ℝ) (g : ι → ℝ) (i : ι) : ℝ := ∑ j, W i j * (g i - g j)

/-- the bilinear form of the Laplacian minus `lam` times the one of the node weights -/
def lapForm (W : ι → ι → ℝ) (d : ι → ℝ) (lam : ℝ) (g h : ι → ℝ) : ℝ := ∑ i, h i * (lapAt W g i - lam * (d i * g i))

/-- every proper nonempty set of nodes has an edge to its complement -/
def Linked (W : ι → ι → ℝ) : Prop := ∀ S : Finset ι, S.Nonempty → Sᶜ.Nonempty → ∃ i ∈ S, ∃ j ∈ Sᶜ, 0 < W i j

theorem lapAt_add (W : ι → ι → ℝ) (g h : ι → ℝ) (i : ι) : lapAt W (g + h) i = lapAt W g i + lapAt W h i := by
  unfold lapAt
  rw [← Finset.sum_add_distrib]
  exact Finset.sum_congr rfl fun j _ => by simp only [Pi.add_apply]; ring

theorem lapAt_smul (W : ι → ι → ℝ) (c : ℝ) (g : ι → ℝ) (i : ι) : lapAt W (c • g) i = c * lapAt W g i := by
  unfold lapAt
  rw [Finset.mul_sum]
  exact Finset.sum_congr rfl fun j _ => by simp only [Pi.smul_apply, smul_eq_mul]; ring

/-- the quadratic form of the Laplacian as a sum over pairs -/
theorem sum_lapAt {W : ι → ι → ℝ} (hW : ∀ i j, W i j = W j i) (g h : ι → ℝ) :
    ∑ i, h i * lapAt W g i = (∑ i, ∑ j, W i j * ((h i - h j) * (g i - g j))) / 2 := by
  have h1 : ∑ i, h i * lapAt W g i = ∑ i, ∑ j, W i j * (h i * (g i - g j)) :=
    Finset.sum_congr rfl fun i _ => by
      unfold lapAt; rw [Finset.mul_sum]; exact Finset.sum_congr rfl fun j _ => by ring
  have h2 : ∑ i, h i * lapAt W g i = ∑ i, ∑ j, W i j * (h j * (g j - g i)) := by
    rw [h1, Finset.sum_comm]
    exact Finset.sum_congr rfl fun i _ => Finset.sum_congr rfl fun j _ => by rw [hW j i]
  have h3 : (∑ i, h i * lapAt W g i) + ∑ i, h i * lapAt W g i = ∑ i, ∑ j, W i j * ((h i - h j) * (g i - g j)) := by
    conv_lhs => rw [h1]
    rw [← h1]
    conv_lhs => arg 1; rw [h1]
    rw [h2, ← Finset.sum_add_distrib]
    exact Finset.sum_congr rfl fun i _ => by
      rw [← Finset.sum_add_distrib]; exact Finset.sum_congr rfl fun j _ => by ring
  linarith

theorem lapForm_symm {W : ι → ι → ℝ} (hW : ∀ i j, W i j = W j i) (d : ι → ℝ) (lam : ℝ) (g h : ι → ℝ) :
    lapForm W d lam g h = lapForm W d lam h g := by
  have e : ∀ a b : ι → ℝ, lapForm W d lam a b = ∑ i, b i * lapAt W a i - ∑ i, lam * (d i * (a i * b i)) := fun a b => by
    unfold lapForm
    rw [← Finset.sum_sub_distrib]
    exact Finset.sum_congr rfl fun i _ => by ring
  rw [e, e, sum_lapAt hW, sum_lapAt hW]
  congr 1
  · congr 1
    exact Finset.sum_congr rfl fun i _ => Finset.sum_congr rfl fun j _ => by ring
  · exact Finset.sum_congr rfl fun i _ => by ring

theorem lapForm_add_left (W : ι → ι → ℝ) (d : ι → ℝ) (lam : ℝ) (g g' h : ι → ℝ) :
    lapForm W d lam (g + g') h = lapForm W d lam g h + lapForm W d lam g' h := by
  unfold lapForm
  rw [← Finset.sum_add_distrib]
  exact Finset.sum_congr rfl fun i _ => by rw [lapAt_add]; simp only [Pi.add_apply]; ring

theorem lapForm_smul_left (W : ι → ι → ℝ) (d : ι → ℝ) (lam c : ℝ) (g h : ι → ℝ) :
    lapForm W d lam (c • g) h = c * lapForm W d lam g h := by
  unfold lapForm
  rw [Finset.mul_sum]
  exact Finset.sum_congr rfl fun i _ => by rw [lapAt_smul]; simp only [Pi.smul_apply, smul_eq_mul]; ring

/-- the Laplacian form is nonnegative -/
theorem sum_lapAt_nonneg {W : ι → ι → ℝ} (hW : ∀ i j, W i j = W j i) (h0 : ∀ i j, 0 ≤ W i j) (g : ι → ℝ) :
    0 ≤ ∑ i, g i * lapAt W g i := by
  rw [sum_lapAt hW]
  refine div_nonneg (Finset.sum_nonneg fun i _ => Finset.sum_nonneg fun j _ => mul_nonneg (h0 i j) (mul_self_nonneg _)) (by norm_num)

/-- a function without energy is constant -/
theorem const_of_energy_zero {W : ι → ι → ℝ} (hW : ∀ i j, W i j = W j i) (h0 : ∀ i j, 0 ≤ W i j) (hL : Linked W) {g : ι → ℝ}
    (hg : ∑ i, g i * lapAt W g i = 0) (a b : ι) : g a = g b := by
  rw [sum_lapAt hW] at hg
  have hz : ∀ i j, W i j * ((g i - g j) * (g i - g j)) = 0 := by
    have hs : ∑ i, ∑ j, W i j * ((g i - g j) * (g i - g j)) = 0 := by linarith
    intro i j
    have := (Finset.sum_eq_zero_iff_of_nonneg (fun i _ => Finset.sum_nonneg fun j _ => mul_nonneg (h0 i j) (mul_self_nonneg _))).1 hs i
      (Finset.mem_univ _)
    exact (Finset.sum_eq_zero_iff_of_nonneg (fun j _ => mul_nonneg (h0 i j) (mul_self_nonneg _))).1 this j (Finset.mem_univ _)
  by_contra hne
  obtain ⟨i, hi, j, hj, hw⟩ := hL (Finset.univ.filter fun i => g i = g a) ⟨a, by simp⟩ ⟨b, by simpa using fun h => hne h.symm⟩
  simp only [Finset.mem_filter, Finset.mem_univ, true_and, Finset.mem_compl] at hi hj
  rcases mul_eq_zero.1 (hz i j) with h | h
  · exact hw.ne' h
  · have := mul_self_eq_zero.1 h
    exact hj (by linarith)

/-- A second eigenvector of the weighted Laplacian: an eigenvector, orthogonal to the constants, with the least eigenvalue on the complement of the
constants. -/
structure SecondVec (W : ι → ι → ℝ) (d : ι → ℝ) (lam : ℝ) (y : ι → ℝ) : Prop where
  eig : ∀ i, lapAt W y i = lam * (d i * y i)
  orth : ∑ i, d i * y i = 0
  ne : y ≠ 0
  least : ∀ g : ι → ℝ, ∑ i, d i * g i = 0 → 0 ≤ lapForm W d lam g g

theorem SecondVec.neg {W : ι → ι → ℝ} {d : ι → ℝ} {lam : ℝ} {y : ι → ℝ} (h : SecondVec W d lam y) : SecondVec W d lam (-y) where
  eig i := by
    have := lapAt_smul W (-1) y i
    rw [neg_one_smul] at this
    rw [this, h.eig i]
    simp only [Pi.neg_apply]; ring
  orth := by
    have := h.orth
    simp only [Pi.neg_apply, mul_neg, Finset.sum_neg_distrib, this, neg_zero]
  ne := neg_ne_zero.2 h.ne
  least := h.least

/-- a second eigenvector has a positive entry -/
theorem SecondVec.exists_pos {W : ι → ι → ℝ} {d : ι → ℝ} {lam : ℝ} {y : ι → ℝ} (hd : ∀ i, 0 < d i) (h : SecondVec W d lam y) :
    ∃ i, 0 < y i := by
  by_contra hn
  push Not at hn
  apply h.ne
  funext i
  have := (Finset.sum_eq_zero_iff_of_nonpos (fun i _ => mul_nonpos_of_nonneg_of_nonpos (hd i).le (hn i))).1 h.orth i (Finset.mem_univ _)
  rcases mul_eq_zero.1 this with h | h
  · exact absurd h (hd i).ne'
  · exact h

/-- a second eigenvector has a negative entry -/
theorem SecondVec.exists_neg {W : ι → ι → ℝ} {d : ι → ℝ} {lam : ℝ} {y : ι → ℝ} (hd : ∀ i, 0 < d i) (h : SecondVec W d lam y) :
    ∃ i, y i < 0 := by
  obtain ⟨i, hi⟩ := h.neg.exists_pos hd
  exact ⟨i, by simpa using hi⟩

/-- a minimiser of the form on the complement of the constants is an eigenvector -/
theorem SecondVec.eig_of_null {W : ι → ι → ℝ} (hW : ∀ i j, W i j = W j i) {d : ι → ℝ} (hd : ∀ i, 0 < d i) {lam : ℝ} {y : ι → ℝ}
    (h : SecondVec W d lam y) {g : ι → ℝ} (hg : ∑ i, d i * g i = 0) (hn : lapForm W d lam g g ≤ 0) (i : ι) :
    lapAt W g i = lam * (d i * g i) := by
  have hnull : lapForm W d lam g g = 0 := le_antisymm hn (h.least g hg)
  have key : ∀ k : ι → ℝ, ∑ i, d i * k i = 0 → lapForm W d lam g k = 0 := by
    intro k hk
    have hq : ∀ t : ℝ, 0 ≤ t * t * lapForm W d lam k k + 2 * t * lapForm W d lam g k := by
      intro t
      have h1 := h.least (g + t • k) (by
        simp only [Pi.add_apply, Pi.smul_apply, smul_eq_mul, mul_add, Finset.sum_add_distrib]
        have : ∑ i, d i * (t * k i) = t * ∑ i, d i * k i := by
          rw [Finset.mul_sum]; exact Finset.sum_congr rfl fun i _ => by ring
        rw [this, hg, hk]; ring)
      rw [lapForm_add_left, lapForm_smul_left, lapForm_symm hW d lam g, lapForm_symm hW d lam k, lapForm_add_left, lapForm_add_left,
        lapForm_smul_left, lapForm_smul_left, hnull, lapForm_symm hW d lam k g] at h1
      linarith
    set A := lapForm W d lam k k
    set B := lapForm W d lam g k
    have hA : 0 ≤ A := h.least k hk
    have h1 := hq (-B / (A + 1))
    have h2 : -B / (A + 1) * (-B / (A + 1)) * A + 2 * (-B / (A + 1)) * B = -(B * B) * ((A + 2) / ((A + 1) * (A + 1))) := by
      field_simp
      ring
    rw [h2] at h1
    have h3 : 0 < (A + 2) / ((A + 1) * (A + 1)) := by positivity
    have h4 : B * B ≤ 0 := by
      by_contra hb
      have := mul_pos (not_le.1 hb) h3
      linarith
    exact mul_self_eq_zero.1 (le_antisymm h4 (mul_self_nonneg B))
  have hone : lapForm W d lam g 1 = 0 := by
    rw [lapForm_symm hW]
    unfold lapForm lapAt
    simp only [Pi.one_apply, sub_self, mul_zero, Finset.sum_const_zero, mul_one, zero_sub, mul_neg, Finset.sum_neg_distrib, neg_eq_zero]
    have : ∑ i, g i * (lam * d i) = lam * ∑ i, d i * g i := by
      rw [Finset.mul_sum]; exact Finset.sum_congr rfl fun i _ => by ring
    rw [this, hg, mul_zero]
  have hD : 0 < ∑ i, d i := Finset.sum_pos (fun i _ => hd i) ⟨i, Finset.mem_univ _⟩
  have hs := key (Pi.single i 1 + (-(d i / ∑ i, d i)) • 1) (by
    simp only [Pi.add_apply, Pi.smul_apply, Pi.one_apply, smul_eq_mul, mul_add, Finset.sum_add_distrib, mul_one]
    rw [← Finset.sum_mul]
    have : ∑ x, d x * (Pi.single i (1 : ℝ) : ι → ℝ) x = d i := by
      rw [Finset.sum_eq_single i (fun b _ hb => by rw [Pi.single_eq_of_ne hb, mul_zero]) (fun h => absurd (Finset.mem_univ _) h)]
      simp
    rw [this]
    field_simp
    ring)
  rw [lapForm_symm hW, lapForm_add_left, lapForm_smul_left, lapForm_symm hW d lam 1, hone, mul_zero, add_zero, lapForm_symm hW] at hs
  unfold lapForm at hs
  rw [Finset.sum_eq_single i (fun b _ hb => by rw [Pi.single_eq_of_ne hb, zero_mul]) (fun h => absurd (Finset.mem_univ _) h)] at hs
  simp only [Pi.single_eq_same, one_mul] at hs
  linarith

/-- the weighted sum of the values outside `X`, seen from `i` -/
def outer (W : ι → ι → ℝ) (y : ι → ℝ) (X : Finset ι) (i : ι) : ℝ := ∑ j ∈ Xᶜ, W i j * y j

/-- the Laplacian at a node of `X` of a multiple of `y` cut off outside `X` -/
theorem lapAt_cut (W : ι → ι → ℝ) (y g : ι → ℝ) (X : Finset ι) (c : ℝ) {i : ι} (hi : i ∈ X) (hX : ∀ j ∈ X, g j = c * y j)
    (ho : ∀ j ∉ X, W i j * g j = 0) : lapAt W g i = c * (lapAt W y i + outer W y X i) := by
  unfold lapAt outer
  rw [← Finset.sum_add_sum_compl X (fun j => W i j * (g i - g j)), ← Finset.sum_add_sum_compl X (fun j => W i j * (y i - y j)),
    add_assoc, ← Finset.sum_add_distrib, mul_add, Finset.mul_sum, Finset.mul_sum]
  congr 1
  · exact Finset.sum_congr rfl fun j hj => by rw [hX i hi, hX j hj]; ring
  · exact Finset.sum_congr rfl fun j hj => by
      have := ho j (Finset.mem_compl.1 hj)
      rw [hX i hi]
      linear_combination -this

/-- **Fiedler**: the nodes with nonpositive entries of a second eigenvector are connected, i.e. they do not fall apart into two sets without an edge
between them. -/
theorem SecondVec.nodal {W : ι → ι → ℝ} (hW : ∀ i j, W i j = W j i) (h0 : ∀ i j, 0 ≤ W i j) (hL : Linked W) {d : ι → ℝ} (hd : ∀ i, 0 < d i)
    {lam : ℝ} {y : ι → ℝ} (h : SecondVec W d lam y) {S1 S2 : Finset ι} (hS : ∀ i, i ∈ S1 ∪ S2 ↔ y i ≤ 0) (hdis : Disjoint S1 S2)
    (h1 : S1.Nonempty) (h2 : S2.Nonempty) : ∃ i ∈ S1, ∃ j ∈ S2, 0 < W i j := by
  by_contra hno
  push Not at hno
  have hz : ∀ i ∈ S1, ∀ j ∈ S2, W i j = 0 := fun i hi j hj => le_antisymm (hno i hi j hj) (h0 i j)
  -- the same for both sides
  have side : ∀ X Y : Finset ι, (∀ i, i ∈ X ∪ Y ↔ y i ≤ 0) → X.Nonempty → (∀ i ∈ X, ∀ j ∈ Y, W i j = 0) →
      (∀ i ∈ X, ∀ j ∉ X, 0 ≤ W i j * y j) ∧ (∃ i ∈ X, 0 < outer W y X i) := by
    intro X Y hXY hX hzz
    have hnn : ∀ i ∈ X, ∀ j ∉ X, 0 ≤ W i j * y j := by
      intro i hi j hj
      by_cases hjY : j ∈ Y
      · rw [hzz i hi j hjY, zero_mul]
      · have : ¬ y j ≤ 0 := fun hle => by
          rcases Finset.mem_union.1 ((hXY j).2 hle) with h | h
          · exact hj h
          · exact hjY h
        exact mul_nonneg (h0 i j) (not_le.1 this).le
    refine ⟨hnn, ?_⟩
    obtain ⟨p, hp⟩ := h.exists_pos hd
    obtain ⟨i, hi, j, hj, hw⟩ := hL X hX ⟨p, by
      rw [Finset.mem_compl]; intro hpX
      exact absurd ((hXY p).1 (Finset.mem_union_left _ hpX)) (not_le.2 hp)⟩
    refine ⟨i, hi, ?_⟩
    have hjX : j ∉ X := Finset.mem_compl.1 hj
    have hyj : 0 < y j := by
      by_contra hle
      rcases Finset.mem_union.1 ((hXY j).2 (not_lt.1 hle)) with hh | hh
      · exact hjX hh
      · exact hw.ne' (hzz i hi j hh)
    exact Finset.sum_pos' (fun k hk => hnn i hi k (Finset.mem_compl.1 hk)) ⟨j, hj, mul_pos hw hyj⟩
  obtain ⟨nn1, b1, hb1, cb1⟩ := side S1 S2 hS h1 hz
  obtain ⟨nn2, b2, hb2, cb2⟩ := side S2 S1 (fun i => by rw [Finset.union_comm]; exact hS i) h2 (fun i hi j hj => by rw [hW]; exact hz j hj i hi)
  set f1 : ι → ℝ := fun i => if i ∈ S1 then y i else 0 with hf1
  set f2 : ι → ℝ := fun i => if i ∈ S2 then y i else 0 with hf2
  have form : ∀ X : Finset ι, (∀ i ∈ X, ∀ j ∉ X, 0 ≤ W i j * y j) → (∀ i ∈ X, y i ≤ 0) →
      lapForm W d lam (fun i => if i ∈ X then y i else 0) (fun i => if i ∈ X then y i else 0) ≤ 0 := by
    intro X hnn hle
    unfold lapForm
    refine Finset.sum_nonpos fun i _ => ?_
    by_cases hi : i ∈ X
    · rw [lapAt_cut W y _ X 1 hi (fun j hj => by simp [hj]) (fun j hj => by simp [hj]), h.eig i]
      simp only [if_pos hi, one_mul]
      have : 0 ≤ outer W y X i := Finset.sum_nonneg fun j hj => hnn i hi j (Finset.mem_compl.1 hj)
      have := mul_nonpos_of_nonpos_of_nonneg (hle i hi) this
      linarith
    · simp [hi]
  have q1 : lapForm W d lam f1 f1 ≤ 0 := form S1 nn1 fun i hi => (hS i).1 (Finset.mem_union_left _ hi)
  have q2 : lapForm W d lam f2 f2 ≤ 0 := form S2 nn2 fun i hi => (hS i).1 (Finset.mem_union_right _ hi)
  have q12 : lapForm W d lam f1 f2 = 0 := by
    unfold lapForm
    refine Finset.sum_eq_zero fun i _ => ?_
    by_cases hi : i ∈ S2
    · have hi1 : i ∉ S1 := fun hh => Finset.disjoint_left.1 hdis hh hi
      have : lapAt W f1 i = 0 := by
        unfold lapAt
        refine Finset.sum_eq_zero fun j _ => ?_
        by_cases hj : j ∈ S1
        · rw [hW, hz j hj i hi, zero_mul]
        · simp [hf1, hi1, hj]
      rw [this]
      simp [hf1, hi1]
    · simp [hf2, hi]
  set al : ℝ := ∑ i, d i * f2 i with hal
  set be : ℝ := -∑ i, d i * f1 i with hbe
  set g : ι → ℝ := al • f1 + be • f2 with hg
  have hg0 : ∑ i, d i * g i = 0 := by
    have : ∑ i, d i * g i = al * (∑ i, d i * f1 i) + be * ∑ i, d i * f2 i := by
      rw [Finset.mul_sum, Finset.mul_sum, ← Finset.sum_add_distrib]
      exact Finset.sum_congr rfl fun i _ => by simp only [hg, Pi.add_apply, Pi.smul_apply, smul_eq_mul]; ring
    rw [this, ← hal]
    have : ∑ i, d i * f1 i = -be := by rw [hbe, neg_neg]
    rw [this]; ring
  have hgq : lapForm W d lam g g ≤ 0 := by
    have : lapForm W d lam g g = al * al * lapForm W d lam f1 f1 + be * be * lapForm W d lam f2 f2 := by
      rw [hg, lapForm_add_left, lapForm_smul_left, lapForm_smul_left, lapForm_symm hW d lam f1, lapForm_symm hW d lam f2, lapForm_add_left,
        lapForm_add_left, lapForm_smul_left, lapForm_smul_left, lapForm_smul_left, lapForm_smul_left, lapForm_symm hW d lam f2 f1, q12]
      ring
    rw [this]
    have e1 := mul_nonpos_of_nonneg_of_nonpos (mul_self_nonneg al) q1
    have e2 := mul_nonpos_of_nonneg_of_nonpos (mul_self_nonneg be) q2
    linarith
  have hge := h.eig_of_null hW hd hg0 hgq
  have gS1 : ∀ j ∈ S1, g j = al * y j := fun j hj => by
    have : j ∉ S2 := Finset.disjoint_left.1 hdis hj
    simp [hg, hf1, hf2, hj, this]
  have gS2 : ∀ j ∈ S2, g j = be * y j := fun j hj => by
    have : j ∉ S1 := fun hh => Finset.disjoint_left.1 hdis hh hj
    simp [hg, hf1, hf2, hj, this]
  have gout : ∀ j, j ∉ S1 → j ∉ S2 → g j = 0 := fun j hj hj' => by simp [hg, hf1, hf2, hj, hj']
  have al0 : al = 0 := by
    have e := lapAt_cut W y g S1 al hb1 gS1 (fun j hj => by
      by_cases hj2 : j ∈ S2
      · rw [hz b1 hb1 j hj2, zero_mul]
      · rw [gout j hj hj2, mul_zero])
    rw [hge b1, h.eig b1, gS1 b1 hb1] at e
    have : al * outer W y S1 b1 = 0 := by linear_combination -e
    exact (mul_eq_zero.1 this).resolve_right cb1.ne'
  have be0 : be = 0 := by
    have e := lapAt_cut W y g S2 be hb2 gS2 (fun j hj => by
      by_cases hj1 : j ∈ S1
      · rw [hW, hz j hj1 b2 hb2, zero_mul]
      · rw [gout j hj1 hj, mul_zero])
    rw [hge b2, h.eig b2, gS2 b2 hb2] at e
    have : be * outer W y S2 b2 = 0 := by linear_combination -e
    exact (mul_eq_zero.1 this).resolve_right cb2.ne'
  -- `y` vanishes on `S1`
  have y1 : ∀ i ∈ S1, y i = 0 := by
    intro i hi
    have hs : ∑ i, d i * f1 i = 0 := by linarith
    have hle : ∀ k ∈ (Finset.univ : Finset ι), d k * f1 k ≤ 0 := fun k _ => by
      by_cases hk : k ∈ S1
      · simp only [hf1, if_pos hk]
        exact mul_nonpos_of_nonneg_of_nonpos (hd k).le ((hS k).1 (Finset.mem_union_left _ hk))
      · simp [hf1, hk]
    have := (Finset.sum_eq_zero_iff_of_nonpos hle).1 hs i (Finset.mem_univ _)
    simp only [hf1, if_pos hi] at this
    exact (mul_eq_zero.1 this).resolve_left (hd i).ne'
  have e := lapAt_cut W y (0 : ι → ℝ) S1 1 hb1 (fun j hj => by simp [y1 j hj]) (fun j _ => by simp)
  have e0 : lapAt W (0 : ι → ℝ) b1 = 0 := by unfold lapAt; simp
  rw [e0, h.eig b1, y1 b1 hb1] at e
  simp only [mul_zero, zero_add, one_mul] at e
  exact cb1.ne e

/-! ### Second eigenvectors from an eigenvalue decomposition -/

/-- the Laplacian matrix of the weights, scaled by `s` on both sides -/
def scaledLap {n : ℕ} (W : Fin n → Fin n → ℝ) (s : Fin n → ℝ) : Matrix (Fin n) (Fin n) ℝ :=
  fun i j => s i * ((if i = j then ∑ k, W i k else 0) - W i j) * s j

theorem scaledLap_mulVec {n : ℕ} (W : Fin n → Fin n → ℝ) (s z : Fin n → ℝ) (i : Fin n) :
    ∑ j, scaledLap W s i j * z j = s i * lapAt W (fun j => s j * z j) i := by
  unfold scaledLap lapAt
  rw [Finset.mul_sum]
  have h1 : ∀ j, s i * ((if i = j then ∑ k, W i k else 0) - W i j) * s j * z j =
      (if i = j then s i * (∑ k, W i k) * (s j * z j) else 0) - s i * (W i j * (s j * z j)) := fun j => by split <;> ring
  rw [Finset.sum_congr rfl fun j _ => h1 j, Finset.sum_sub_distrib, Finset.sum_ite_eq, if_pos (Finset.mem_univ _)]
  have h2 : ∀ j, s i * (W i j * (s i * z i - s j * z j)) = s i * (s i * z i) * W i j - s i * (W i j * (s j * z j)) := fun j => by ring
  have h3 : ∑ j, s i * (s i * z i) * W i j = s i * (s i * z i) * ∑ j, W i j := by rw [Finset.mul_sum]
  rw [Finset.sum_congr rfl fun j _ => h2 j, Finset.sum_sub_distrib, h3]
  ring

section
variable {n : ℕ} {W : Fin n → Fin n → ℝ} {s : Fin n → ℝ} {U : Matrix (Fin n) (Fin n) ℝ} {vals : Fin n → ℝ}

theorem IsEigh.col (hs : ∀ i, 0 < s i) (h : IsEigh (scaledLap W s) U vals) (k i : Fin n) :
    lapAt W (fun j => s j * U j k) i = vals k * (1 / s i ^ 2 * (s i * U i k)) := by
  have h1 := congrFun (congrFun h.eigen i) k
  rw [Matrix.mul_apply, Matrix.mul_diagonal, scaledLap_mulVec W s (fun j => U j k) i] at h1
  have := (hs i).ne'
  field_simp
  linear_combination h1

/-- the coordinates of a vector in the basis of eigenvectors -/
def coord (U : Matrix (Fin n) (Fin n) ℝ) (z : Fin n → ℝ) (k : Fin n) : ℝ := ∑ i, U i k * z i

theorem IsEigh.expand {A : Matrix (Fin n) (Fin n) ℝ} (h : IsEigh A U vals) (z : Fin n → ℝ) (i : Fin n) : z i = ∑ k, U i k * coord U z k := by
  have h1 : U * U.transpose = 1 := mul_eq_one_comm.1 h.orthonormal
  unfold coord
  simp only [Finset.mul_sum]
  rw [Finset.sum_comm]
  have h2 : ∀ j, ∑ k, U i k * (U j k * z j) = (1 : Matrix (Fin n) (Fin n) ℝ) i j * z j := fun j => by
    rw [← h1, Matrix.mul_apply, Finset.sum_mul]
    exact Finset.sum_congr rfl fun k _ => by rw [Matrix.transpose_apply]; ring
  rw [Finset.sum_congr rfl fun j _ => h2 j]
  simp [Matrix.one_apply]

theorem IsEigh.norm {A : Matrix (Fin n) (Fin n) ℝ} (h : IsEigh A U vals) (z : Fin n → ℝ) : ∑ i, z i * z i = ∑ k, coord U z k * coord U z k := by
  have : ∀ k, coord U z k * coord U z k = ∑ i, z i * (U i k * coord U z k) := fun k => by
    conv_lhs => arg 1; unfold coord
    rw [Finset.sum_mul]
    exact Finset.sum_congr rfl fun i _ => by ring
  rw [Finset.sum_congr rfl fun k _ => this k, Finset.sum_comm]
  exact Finset.sum_congr rfl fun i _ => by rw [← Finset.mul_sum, ← h.expand]

theorem IsEigh.form {A : Matrix (Fin n) (Fin n) ℝ} (h : IsEigh A U vals) (z : Fin n → ℝ) :
    ∑ i, z i * ∑ j, A i j * z j = ∑ k, vals k * (coord U z k * coord U z k) := by
  have h1 : ∀ i, ∑ j, A i j * z j = ∑ k, vals k * (U i k * coord U z k) := fun i => by
    have : ∀ j, A i j * z j = ∑ k, A i j * U j k * coord U z k := fun j => by
      conv_lhs => rw [h.expand z j]
      rw [Finset.mul_sum]
      exact Finset.sum_congr rfl fun k _ => by ring
    rw [Finset.sum_congr rfl fun j _ => this j, Finset.sum_comm]
    refine Finset.sum_congr rfl fun k _ => ?_
    have h2 := congrFun (congrFun h.eigen i) k
    rw [Matrix.mul_apply, Matrix.mul_diagonal] at h2
    rw [← Finset.sum_mul, h2]
    ring
  rw [Finset.sum_congr rfl fun i _ => by rw [h1 i, Finset.mul_sum], Finset.sum_comm]
  refine Finset.sum_congr rfl fun k _ => ?_
  conv_rhs => arg 2; arg 1; unfold coord
  rw [Finset.sum_mul, Finset.mul_sum]
  exact Finset.sum_congr rfl fun i _ => by ring

theorem IsEigh.orth {A : Matrix (Fin n) (Fin n) ℝ} (h : IsEigh A U vals) (k l : Fin n) : ∑ i, U i k * U i l = if k = l then 1 else 0 := by
  have := congrFun (congrFun h.orthonormal k) l
  rwa [Matrix.mul_apply, Matrix.one_apply] at this

/-- The second column of an eigenvalue decomposition of a scaled Laplacian, scaled back, is a second eigenvector. -/
theorem IsEigh.second (hW : ∀ i j, W i j = W j i) (h0 : ∀ i j, 0 ≤ W i j) (hL : Linked W) (hs : ∀ i, 0 < s i)
    (h : IsEigh (scaledLap W s) U vals) (hn : 1 < n) :
    SecondVec W (fun i => 1 / s i ^ 2) (vals ⟨1, hn⟩) (fun i => s i * U i ⟨1, hn⟩) := by
  set o : Fin n := ⟨0, by omega⟩ with ho
  set e : Fin n := ⟨1, hn⟩ with he
  have energy : ∀ g : Fin n → ℝ, ∑ i, g i * lapAt W g i =
      ∑ k, vals k * (coord U (fun i => g i / s i) k * coord U (fun i => g i / s i) k) := by
    intro g
    rw [← h.form]
    refine Finset.sum_congr rfl fun i _ => ?_
    rw [scaledLap_mulVec]
    have hsi := (hs i).ne'
    have : (fun j => s j * (g j / s j)) = g := by
      funext j; have := (hs j).ne'; field_simp
    rw [this]
    field_simp
  have nonneg : ∀ k, 0 ≤ vals k := by
    intro k
    have h1 := sum_lapAt_nonneg hW h0 (fun j => s j * U j k)
    have h2 : ∑ i, s i * U i k * lapAt W (fun j => s j * U j k) i = vals k := by
      have : ∀ i, s i * U i k * lapAt W (fun j => s j * U j k) i = vals k * (U i k * U i k) := fun i => by
        rw [h.col hs]; have := (hs i).ne'; field_simp
      rw [Finset.sum_congr rfl fun i _ => this i, ← Finset.mul_sum, h.orth, if_pos rfl, mul_one]
    rwa [h2] at h1
  have zero : vals o = 0 := by
    have h1 := energy 1
    have hl : ∑ i, (1 : Fin n → ℝ) i * lapAt W 1 i = 0 := by unfold lapAt; simp
    rw [hl] at h1
    have hall := (Finset.sum_eq_zero_iff_of_nonneg (fun k _ => mul_nonneg (nonneg k) (mul_self_nonneg _))).1 h1.symm
    by_contra hne
    have hpos : ∀ k, 0 < vals k := fun k =>
      lt_of_lt_of_le (lt_of_le_of_ne (nonneg o) (Ne.symm hne)) (h.ascending (Fin.mk_le_of_le_val (Nat.zero_le _)))
    have hc : ∀ k, coord U (fun i => (1 : Fin n → ℝ) i / s i) k = 0 := fun k =>
      mul_self_eq_zero.1 ((mul_eq_zero.1 (hall k (Finset.mem_univ _))).resolve_left (hpos k).ne')
    have := h.expand (fun i => (1 : Fin n → ℝ) i / s i) o
    rw [Finset.sum_eq_zero fun k _ => by rw [hc k, mul_zero]] at this
    have h2 := (hs o).ne'
    simp only [Pi.one_apply, one_div, inv_eq_zero] at this
    exact h2 this
  have const : ∀ i, s i * U i o = s o * U o o := by
    intro i
    refine const_of_energy_zero hW h0 hL (g := fun i => s i * U i o) ?_ i o
    refine Finset.sum_eq_zero fun i _ => ?_
    rw [h.col hs, zero]; ring
  have cne : s o * U o o ≠ 0 := by
    intro hz
    have h1 := h.orth o o
    rw [if_pos rfl, Finset.sum_eq_zero] at h1
    · exact zero_ne_one h1
    · intro i _
      have := const i
      rw [hz] at this
      rw [(mul_eq_zero.1 this).resolve_left (hs i).ne', mul_zero]
  have uo : ∀ i, U i o = s o * U o o / s i := fun i => by
    rw [← const i]; have := (hs i).ne'; field_simp
  refine ⟨fun i => h.col hs e i, ?_, ?_, ?_⟩
  · have h1 := h.orth o e
    rw [if_neg (by simp [ho, he])] at h1
    have h2 : (s o * U o o) * ∑ i, 1 / s i ^ 2 * (s i * U i e) = 0 := by
      rw [← h1, Finset.mul_sum]
      exact Finset.sum_congr rfl fun i _ => by rw [uo i]; have := (hs i).ne'; field_simp
    exact (mul_eq_zero.1 h2).resolve_left cne
  · intro hz
    have h1 := h.orth e e
    rw [if_pos rfl, Finset.sum_eq_zero] at h1
    · exact zero_ne_one h1
    · intro i _
      have : s i * U i e = 0 := congrFun hz i
      rw [(mul_eq_zero.1 this).resolve_left (hs i).ne', mul_zero]
  · intro g hg
    have h1 : lapForm W (fun i => 1 / s i ^ 2) (vals e) g g = ∑ i, g i * lapAt W g i - vals e * ∑ i, (g i / s i) * (g i / s i) := by
      unfold lapForm
      rw [Finset.mul_sum, ← Finset.sum_sub_distrib]
      exact Finset.sum_congr rfl fun i _ => by have := (hs i).ne'; field_simp
    rw [h1, energy, h.norm (fun i => g i / s i), Finset.mul_sum, ← Finset.sum_sub_distrib]
    refine Finset.sum_nonneg fun k _ => ?_
    rw [← sub_mul]
    by_cases hk : k = o
    · have : coord U (fun i => g i / s i) k = 0 := by
        unfold coord
        rw [hk]
        have : ∀ i, U i o * (g i / s i) = (s o * U o o) * (1 / s i ^ 2 * g i) := fun i => by
          conv_lhs => rw [uo i]
          have := (hs i).ne'; field_simp
        rw [Finset.sum_congr rfl fun i _ => this i, ← Finset.mul_sum, hg, mul_zero]
      rw [this]; simp
    · refine mul_nonneg (sub_nonneg.2 (h.ascending ?_)) (mul_self_nonneg _)
      rw [Fin.le_def]
      have : k.val ≠ 0 := fun hh => hk (Fin.ext hh)
      show 1 ≤ k.val
      omega
end

end GC

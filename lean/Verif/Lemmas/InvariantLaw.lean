import Verif.Lemmas.Poisson
import Mathlib.LinearAlgebra.Dual.Lemmas

/-!
# Existence and uniqueness of the stationary distribution

Nothing in this file is about GerryChain.
-/

set_option linter.unusedSectionVars false
set_option autoImplicit false

namespace GC

variable {α : Type} {S : Finset α} {K : α → α → ℚ} {π : α → ℚ}

/-- A chain with finitely many states has a stationary distribution. -/
theorem exists_invariant (hK : IsKernel S K) (hne : S.Nonempty) : ∃ π, Invariant S K π := by
  classical
  obtain ⟨x0, hx0⟩ := hne
  let T : (S → ℚ) →ₗ[ℚ] (S → ℚ) :=
    { toFun := fun g x => g x - ∑ y : S, K x y * g y
      map_add' := fun a b => by
        funext x
        simp only [Pi.add_apply, mul_add, Finset.sum_add_distrib]
        ring
      map_smul' := fun c a => by
        funext x
        simp only [Pi.smul_apply, smul_eq_mul, RingHom.id_apply, mul_sub, Finset.mul_sum]
        congr 1
        exact Finset.sum_congr rfl (fun y _ => by ring) }
  have hlt : LinearMap.range T < ⊤ := by
    rw [lt_top_iff_ne_top]
    intro htop
    have hinj : Function.Injective T := LinearMap.injective_iff_surjective.2 (LinearMap.range_eq_top.1 htop)
    have h1 : T (fun _ => 1) = T 0 := by
      rw [map_zero]
      funext x
      show (1 : ℚ) - ∑ y : S, K x y * 1 = 0
      simp only [mul_one]
      rw [Finset.sum_coe_sort S (fun y => K x y), hK.sum x x.2, sub_self]
    have := congrFun (hinj h1) ⟨x0, hx0⟩
    norm_num at this
  obtain ⟨Φ, hΦ, hker⟩ := Submodule.exists_le_ker_of_lt_top _ hlt
  have happly : ∀ g : S → ℚ, Φ g = ∑ x : S, g x * Φ (Pi.single x 1) := by
    intro g
    conv_lhs => rw [pi_eq_sum_univ' g]
    rw [map_sum]
    exact Finset.sum_congr rfl (fun x _ => by rw [map_smul, smul_eq_mul])
  let ρ : α → ℚ := fun x => if hx : x ∈ S then Φ (Pi.single ⟨x, hx⟩ 1) else 0
  have hρ : ∀ x : S, ρ x = Φ (Pi.single x 1) := fun x => by simp [ρ]
  have hstep : ∀ y ∈ S, ∑ x ∈ S, ρ x * K x y = ρ y := by
    intro y hy
    have h1 : Φ (T (Pi.single ⟨y, hy⟩ 1)) = 0 := hker ⟨_, rfl⟩
    rw [happly] at h1
    have h2 : ∀ x : S, T (Pi.single ⟨y, hy⟩ 1) x = (if x = ⟨y, hy⟩ then 1 else 0) - K x y := by
      intro x
      show (Pi.single ⟨y, hy⟩ (1 : ℚ) : S → ℚ) x - ∑ z : S, K x z * (Pi.single ⟨y, hy⟩ (1 : ℚ) : S → ℚ) z = _
      rw [Finset.sum_eq_single_of_mem (⟨y, hy⟩ : S) (Finset.mem_univ _) (fun z _ hz => by rw [Pi.single_eq_of_ne hz, mul_zero]), Pi.single_eq_same, mul_one,
        Pi.single_apply]
    simp only [h2, sub_mul, Finset.sum_sub_distrib, ite_mul, one_mul, zero_mul, Finset.sum_ite_eq', Finset.mem_univ, if_true] at h1
    rw [← Finset.sum_coe_sort S, show ρ y = _ from hρ ⟨y, hy⟩]
    simp only [hρ]
    rw [eq_comm, ← sub_eq_zero, ← h1]
    congr 1
    exact Finset.sum_congr rfl (fun x _ => mul_comm _ _)
  have htot : 0 < ∑ x ∈ S, |ρ x| := by
    by_contra h0
    have h0' : ∑ x ∈ S, |ρ x| = 0 := le_antisymm (not_lt.1 h0) (Finset.sum_nonneg (fun x _ => abs_nonneg _))
    rw [Finset.sum_eq_zero_iff_of_nonneg (fun x _ => abs_nonneg _)] at h0'
    apply hΦ
    refine LinearMap.ext (fun g => ?_)
    rw [happly]
    refine Finset.sum_eq_zero (fun x _ => ?_)
    rw [← hρ x, abs_eq_zero.1 (h0' x x.2), mul_zero]
  have hle : ∀ y ∈ S, |ρ y| ≤ ∑ x ∈ S, |ρ x| * K x y := by
    intro y hy
    rw [← hstep y hy]
    refine (Finset.abs_sum_le_sum_abs _ _).trans (Finset.sum_le_sum (fun x hx => ?_))
    rw [abs_mul, abs_of_nonneg (hK.nonneg x hx y hy)]
  have heq : ∑ y ∈ S, |ρ y| = ∑ y ∈ S, ∑ x ∈ S, |ρ x| * K x y := by
    rw [Finset.sum_comm]
    exact Finset.sum_congr rfl (fun x hx => by rw [← Finset.mul_sum, hK.sum x hx, mul_one])
  have hall := (Finset.sum_eq_sum_iff_of_le hle).1 heq
  refine ⟨fun x => |ρ x| / ∑ z ∈ S, |ρ z|, fun x _ => div_nonneg (abs_nonneg _) htot.le, ?_, fun y hy => ?_⟩
  · rw [← Finset.sum_div, div_self htot.ne']
  · rw [hall y hy, Finset.sum_div]
    exact Finset.sum_congr rfl (fun x _ => by ring)

/-- every state has a positive weight -/
theorem Invariant.pos (hπ : Invariant S K π) (hK : IsKernel S K) (hc : Connects S K) : ∀ x ∈ S, 0 < π x := by
  obtain ⟨x0, hx0, hpos⟩ : ∃ x ∈ S, 0 < π x := by
    by_contra h
    push Not at h
    have := Finset.sum_nonpos h
    rw [hπ.sum] at this
    norm_num at this
  intro y hy
  have := hc x0 hx0 y hy
  clear hy
  induction this with
  | refl => exact hpos
  | tail _ h ih =>
    rw [← hπ.step _ h.2.1]
    exact Finset.sum_pos' (fun x hx => mul_nonneg (hπ.nonneg x hx) (hK.nonneg x hx _ h.2.1)) ⟨_, h.1, mul_pos ih h.2.2⟩

/-- there is only one stationary distribution -/
theorem Invariant.unique {π' : α → ℚ} (hπ : Invariant S K π) (hπ' : Invariant S K π') (hK : IsKernel S K) (hc : Connects S K) : ∀ x ∈ S, π' x = π x := by
  classical
  intro y hy
  have hval : ∀ {π : α → ℚ}, Invariant S K π → ∀ c, ∑ x ∈ S, π x * ((if x = y then 1 else 0) - c) = π y - c := by
    intro π hπ c
    simp only [mul_sub, Finset.sum_sub_distrib, mul_ite, mul_one, mul_zero, Finset.sum_ite_eq', if_pos hy, ← Finset.sum_mul, hπ.sum, one_mul]
  obtain ⟨g, hg⟩ := exists_poisson hK hπ hc (h := fun x => (if x = y then 1 else 0) - π y) (by rw [hval hπ, sub_self])
  have h1 : ∑ x ∈ S, π' x * (g x - smooth S K g x) = 0 := by
    have h2 := hπ'.after g 1
    simp only [mul_sub, Finset.sum_sub_distrib]
    rw [sub_eq_zero, ← h2]
    rfl
  rw [Finset.sum_congr rfl (fun x hx => by rw [hg x hx]), hval hπ'] at h1
  linarith

end GC

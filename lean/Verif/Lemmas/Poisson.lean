import Verif.Lemmas.Mixing
import Mathlib.LinearAlgebra.Dimension.Finite
import Mathlib.LinearAlgebra.FiniteDimensional.Lemmas
import Mathlib.LinearAlgebra.FiniteDimensional.Basic
import Mathlib.LinearAlgebra.Dimension.Constructions

/-!
# Averages along Markov chains that may be periodic

Nothing in this file is about GerryChain: the law of large numbers for connected chains with finitely many states (Poisson's equation), and bounds for
chains that are lost with a small probability in every step.
-/

set_option linter.unusedSectionVars false
set_option autoImplicit false

namespace GC

variable {α : Type} {S : Finset α} {K : α → α → ℚ} {π : α → ℚ}

/-- every state can be reached from every other one -/
def Connects (S : Finset α) (K : α → α → ℚ) : Prop :=
  ∀ x ∈ S, ∀ y ∈ S, Relation.ReflTransGen (fun u v => u ∈ S ∧ v ∈ S ∧ 0 < K u v) x y

/-- one step of averaging -/
def smooth (S : Finset α) (K : α → α → ℚ) (g : α → ℚ) (x : α) : ℚ := ∑ y ∈ S, K x y * g y

/-- maximum principle: a function that averaging does not change is constant -/
theorem harmonic_const (hK : IsKernel S K) (hc : Connects S K) {g : α → ℚ} (hg : ∀ x ∈ S, smooth S K g x = g x) : ∀ x ∈ S, ∀ y ∈ S, g x = g y := by
  intro x0 hx0
  obtain ⟨z, hz, hmax⟩ := S.exists_max_image g ⟨x0, hx0⟩
  have hstep : ∀ u v, u ∈ S → v ∈ S → 0 < K u v → g u = g z → g v = g z := by
    intro u v hu hv huv hgu
    by_contra hne
    have hlt : g v < g z := lt_of_le_of_ne (hmax v hv) hne
    have h1 : ∑ y ∈ S, K u y * g y < ∑ y ∈ S, K u y * g z :=
      Finset.sum_lt_sum (fun y hy => mul_le_mul_of_nonneg_left (hmax y hy) (hK.nonneg u hu y hy)) ⟨v, hv, mul_lt_mul_of_pos_left hlt huv⟩
    rw [← Finset.sum_mul, hK.sum u hu, one_mul] at h1
    have h2 := hg u hu
    unfold smooth at h2
    rw [h2, hgu] at h1
    exact lt_irrefl _ h1
  have hall : ∀ y ∈ S, g y = g z := by
    intro y hy
    have := hc z hz y hy
    clear hy
    induction this with
    | refl => rfl
    | tail _ h ih => exact hstep _ _ h.1 h.2.1 h.2.2 ih
  intro y hy
  rw [hall x0 hx0, hall y hy]

/-- **Poisson's equation** has a solution for every function whose mean is 0. -/
theorem exists_poisson (hK : IsKernel S K) (hπ : Invariant S K π) (hc : Connects S K) {h : α → ℚ} (hmean : ∑ x ∈ S, π x * h x = 0) :
    ∃ g : α → ℚ, ∀ x ∈ S, g x - smooth S K g x = h x := by
  classical
  let T : (S → ℚ) →ₗ[ℚ] (S → ℚ) :=
    { toFun := fun g x => g x - ∑ y : S, K x y * g y
      map_add' := fun a b => by
        funext x
        simp only [Pi.add_apply, mul_add, Finset.sum_add_distrib]
        ring
      map_smul' := fun c a => by
        funext x
        simp only [Pi.smul_apply, smul_eq_mul, RingHom.id_apply, mul_sub, Finset.mul_sum]
        congr 1
        exact Finset.sum_congr rfl (fun y _ => by ring) }
  let Φ : (S → ℚ) →ₗ[ℚ] ℚ :=
    { toFun := fun g => ∑ x : S, π x * g x
      map_add' := fun a b => by simp only [Pi.add_apply, mul_add, Finset.sum_add_distrib]
      map_smul' := fun c a => by
        simp only [Pi.smul_apply, smul_eq_mul, RingHom.id_apply, Finset.mul_sum]
        exact Finset.sum_congr rfl (fun y _ => by ring) }
  have hne : S.Nonempty := by
    rw [Finset.nonempty_iff_ne_empty]
    rintro rfl
    have := hπ.sum
    simp at this
  obtain ⟨x0, hx0⟩ := hne
  have hrange : LinearMap.range T ≤ LinearMap.ker Φ := by
    rintro _ ⟨g, rfl⟩
    rw [LinearMap.mem_ker]
    show ∑ x : S, π x * (g x - ∑ y : S, K x y * g y) = 0
    simp only [mul_sub, Finset.sum_sub_distrib, Finset.mul_sum]
    rw [Finset.sum_comm (f := fun (x y : S) => π x * (K x y * g y)), sub_eq_zero]
    refine Finset.sum_congr rfl (fun y _ => ?_)
    have := hπ.step y y.2
    rw [← this, ← Finset.sum_coe_sort S, Finset.sum_mul]
    exact Finset.sum_congr rfl (fun x _ => by ring)
  have hker : Module.finrank ℚ (LinearMap.ker T) ≤ 1 := by
    refine finrank_le_one (⟨fun _ => 1, ?_⟩ : LinearMap.ker T) ?_
    · rw [LinearMap.mem_ker]
      funext x
      show (1 : ℚ) - ∑ y : S, K x y * 1 = 0
      simp only [mul_one]
      rw [Finset.sum_coe_sort S (fun y => K x y), hK.sum x x.2, sub_self]
    · rintro ⟨g, hg⟩
      refine ⟨g ⟨x0, hx0⟩, ?_⟩
      rw [LinearMap.mem_ker] at hg
      apply Subtype.ext
      funext x
      show g ⟨x0, hx0⟩ * 1 = g x
      rw [mul_one]
      let g' : α → ℚ := fun y => if hy : y ∈ S then g ⟨y, hy⟩ else 0
      have hg' : ∀ y : S, g' y = g y := fun y => by simp [g']
      have := harmonic_const hK hc (g := g') (fun y hy => by
        have h1 := congrFun hg ⟨y, hy⟩
        have h1 : g ⟨y, hy⟩ - ∑ z : S, K y z * g z = 0 := h1
        unfold smooth
        rw [← Finset.sum_coe_sort S]
        simp only [hg']
        rw [show g' y = g ⟨y, hy⟩ from hg' ⟨y, hy⟩]
        linarith) x0 hx0 x x.2
      rw [← hg' x, ← this]
      exact (hg' ⟨x0, hx0⟩).symm
  have hΦ : Function.Surjective Φ := by
    intro c
    refine ⟨fun _ => c, ?_⟩
    show ∑ x : S, π x * c = c
    rw [← Finset.sum_mul, Finset.sum_coe_sort S π, hπ.sum, one_mul]
  have h1 := LinearMap.finrank_range_add_finrank_ker T
  have h2 := LinearMap.finrank_range_add_finrank_ker Φ
  rw [LinearMap.range_eq_top.2 hΦ, finrank_top, Module.finrank_self] at h2
  have heq : LinearMap.range T = LinearMap.ker Φ := Submodule.eq_of_le_of_finrank_le hrange (by omega)
  have hmem : (fun x : S => h x) ∈ LinearMap.range T := by
    rw [heq, LinearMap.mem_ker]
    show ∑ x : S, π x * h x = 0
    rw [Finset.sum_coe_sort S (fun x => π x * h x), hmean]
  obtain ⟨g, hg⟩ := hmem
  refine ⟨fun y => if hy : y ∈ S then g ⟨y, hy⟩ else 0, fun x hx => ?_⟩
  have h3 := congrFun hg ⟨x, hx⟩
  have h3 : g ⟨x, hx⟩ - ∑ z : S, K x z * g z = h x := h3
  rw [← h3]
  unfold smooth
  rw [← Finset.sum_coe_sort S]
  simp [hx]

/-- the mean of the square of a sum along a path, made a martingale by Poisson's equation -/
theorem poisson_square (hK : IsKernel S K) {g h : α → ℚ} {B : ℚ} (hB : ∀ x ∈ S, |g x| ≤ B) (hg : ∀ x ∈ S, g x - smooth S K g x = h x) (n : ℕ) :
    ∀ (c : ℚ), ∀ x ∈ S, pathMean S K n (fun l => (c + sumAlong h l + smooth S K g (l.getLast?.getD x)) ^ 2) x ≤ (c + smooth S K g x) ^ 2 + n * B ^ 2 := by
  induction n with
  | zero => intro c x _; simp [pathMean, sumAlong]
  | succ n ih =>
    intro c x hx
    show ∑ y ∈ S, K x y * pathMean S K n (fun l => (c + sumAlong h (y :: l) + smooth S K g ((y :: l).getLast?.getD x)) ^ 2) y ≤ _
    have hb : ∀ y ∈ S, K x y * pathMean S K n (fun l => (c + sumAlong h (y :: l) + smooth S K g ((y :: l).getLast?.getD x)) ^ 2) y ≤
        K x y * ((c + g y) ^ 2 + n * B ^ 2) := by
      intro y hy
      refine mul_le_mul_of_nonneg_left ?_ (hK.nonneg x hx y hy)
      have := ih (c + h y) y hy
      rw [show c + h y + smooth S K g y = c + g y by rw [← hg y hy]; ring] at this
      refine le_of_eq_of_le (pathMean_congr n (fun l _ => ?_) y) this
      have e1 : sumAlong h (y :: l) = h y + sumAlong h l := by simp [sumAlong]
      have e2 : (y :: l).getLast?.getD x = l.getLast?.getD y := by
        cases l with
        | nil => rfl
        | cons z l => simp [List.getLast?_cons]
      rw [e1, e2]
      ring
    refine (Finset.sum_le_sum hb).trans ?_
    have hs : smooth S K g x = ∑ y ∈ S, K x y * g y := rfl
    have e : ∑ y ∈ S, K x y * ((c + g y) ^ 2 + n * B ^ 2) = c ^ 2 + 2 * c * smooth S K g x + ∑ y ∈ S, K x y * g y ^ 2 + n * B ^ 2 := by
      have : ∀ y ∈ S, K x y * ((c + g y) ^ 2 + n * B ^ 2) = (c ^ 2 + n * B ^ 2) * K x y + (2 * c * (K x y * g y) + K x y * g y ^ 2) := fun y _ => by ring
      rw [Finset.sum_congr rfl this, Finset.sum_add_distrib, Finset.sum_add_distrib, ← Finset.mul_sum, ← Finset.mul_sum, hK.sum x hx, ← hs]
      ring
    rw [e]
    have h1 : ∑ y ∈ S, K x y * g y ^ 2 ≤ B ^ 2 := by
      calc _ ≤ ∑ y ∈ S, K x y * B ^ 2 := Finset.sum_le_sum (fun y hy => mul_le_mul_of_nonneg_left
              (sq_le_sq' (abs_le.1 (hB y hy)).1 (abs_le.1 (hB y hy)).2) (hK.nonneg x hx y hy))
        _ = B ^ 2 := by rw [← Finset.sum_mul, hK.sum x hx, one_mul]
    push_cast
    nlinarith [sq_nonneg (smooth S K g x)]

theorem smooth_abs (hK : IsKernel S K) {g : α → ℚ} {B : ℚ} (hB : ∀ x ∈ S, |g x| ≤ B) {x : α} (hx : x ∈ S) : |smooth S K g x| ≤ B := by
  unfold smooth
  refine (Finset.abs_sum_le_sum_abs _ _).trans ?_
  calc _ ≤ ∑ y ∈ S, K x y * B := Finset.sum_le_sum (fun y hy => by
            rw [abs_mul, abs_of_nonneg (hK.nonneg x hx y hy)]
            exact mul_le_mul_of_nonneg_left (hB y hy) (hK.nonneg x hx y hy))
    _ = B := by rw [← Finset.sum_mul, hK.sum x hx, one_mul]

/-- the mean square of the sum of a centred function along a path, including its first state, grows only linearly -/
theorem square_linear (hK : IsKernel S K) {g h : α → ℚ} {B : ℚ} (hB : ∀ x ∈ S, |g x| ≤ B) (hg : ∀ x ∈ S, g x - smooth S K g x = h x) (n : ℕ) {x : α} (hx : x ∈ S) :
    pathMean S K n (fun l => sumAlong h (x :: l) ^ 2) x ≤ 4 * B ^ 2 * (n + 1 : ℕ) := by
  have h1 := poisson_square hK hB hg n (h x) x hx
  rw [show h x + smooth S K g x = g x by rw [← hg x hx]; ring] at h1
  have h2 : pathMean S K n (fun l => sumAlong h (x :: l) ^ 2) x ≤
      pathMean S K n (fun l => 2 * (fun l => (h x + sumAlong h l + smooth S K g (l.getLast?.getD x)) ^ 2) l + 2 * B ^ 2 * (fun _ => 1) l) x := by
    refine pathMean_mono hK n (fun l _ hl => ?_) x hx
    have e1 : sumAlong h (x :: l) = h x + sumAlong h l := by simp [sumAlong]
    have hlast : l.getLast?.getD x ∈ S := by
      cases hl' : l.getLast? with
      | none => exact hx
      | some y => exact hl y (List.mem_of_getLast? hl')
    have h3 := smooth_abs hK hB hlast
    have h4 : smooth S K g (l.getLast?.getD x) ^ 2 ≤ B ^ 2 := sq_le_sq' (abs_le.1 h3).1 (abs_le.1 h3).2
    rw [e1]
    simp only [mul_one]
    nlinarith [sq_nonneg (h x + sumAlong h l + 2 * smooth S K g (l.getLast?.getD x))]
  rw [pathMean_lin, pathMean_const hK 1 n x hx] at h2
  have h5 : g x ^ 2 ≤ B ^ 2 := sq_le_sq' (abs_le.1 (hB x hx)).1 (abs_le.1 (hB x hx)).2
  push_cast
  have : (0 : ℚ) ≤ n * B ^ 2 := by positivity
  linarith

/-- Chebyshev's inequality along a path -/
theorem chebyshev_path (hK : IsKernel S K) {f : α → ℚ} {μ C : ℚ} (n : ℕ) {x : α} (hx : x ∈ S)
    (hsq : pathMean S K n (fun l => sumAlong (fun y => f y - μ) (x :: l) ^ 2) x ≤ C * (n + 1 : ℕ)) (ε : ℚ) (hε : 0 < ε) :
    pathMean S K n (fun l => if ε ≤ |sumAlong f (x :: l) / (x :: l).length - μ| then 1 else 0) x ≤ C / ((n + 1 : ℕ) * ε ^ 2) := by
  have hn' : (0 : ℚ) < ((n + 1 : ℕ) : ℚ) := by exact_mod_cast Nat.succ_pos n
  have hle : pathMean S K n (fun l => if ε ≤ |sumAlong f (x :: l) / (x :: l).length - μ| then (1 : ℚ) else 0) x ≤
      pathMean S K n (fun l => 1 / ((n + 1 : ℕ) * ε) ^ 2 * (fun l => sumAlong (fun y => f y - μ) (x :: l) ^ 2) l + 0 * (fun _ => (0 : ℚ)) l) x := by
    refine pathMean_mono hK n (fun l hl _ => ?_) x hx
    have hlen : (((x :: l).length : ℕ) : ℚ) = ((n + 1 : ℕ) : ℚ) := by rw [List.length_cons, hl]
    have hs : sumAlong (fun y => f y - μ) (x :: l) = ((n + 1 : ℕ) : ℚ) * (sumAlong f (x :: l) / ((n + 1 : ℕ) : ℚ) - μ) := by
      rw [sumAlong_sub, hlen, mul_sub, mul_div_cancel₀ _ hn'.ne']
    simp only [zero_mul, add_zero]
    rw [hs, hlen]
    split_ifs with hc
    · rw [one_div, ← div_eq_inv_mul, le_div_iff₀ (by positivity), one_mul, mul_pow, mul_pow]
      refine mul_le_mul_of_nonneg_left ?_ (by positivity)
      rw [← sq_abs (_ - μ)]
      exact pow_le_pow_left₀ hε.le hc 2
    · positivity
  refine hle.trans ?_
  rw [pathMean_lin, zero_mul, add_zero]
  calc _ ≤ 1 / (((n + 1 : ℕ) : ℚ) * ε) ^ 2 * (C * ((n + 1 : ℕ) : ℚ)) := mul_le_mul_of_nonneg_left hsq (by positivity)
    _ = _ := by
      have h1 := hn'.ne'
      rw [mul_pow, one_div, ← div_eq_inv_mul, pow_two (((n + 1 : ℕ) : ℚ)), mul_assoc, mul_comm C, mul_div_mul_left _ _ h1]

/-- **law of large numbers** for connected chains, also periodic ones: the probability that the average over the first state and `n` further ones is off by
`ε` or more is at most `C / ((n + 1) ε²)`, with a constant that does not depend on `n`, `ε` and the first state -/
theorem large_numbers_connected (hK : IsKernel S K) (hπ : Invariant S K π) (hc : Connects S K) (f : α → ℚ) :
    ∃ C, 0 ≤ C ∧ ∀ (n : ℕ) (ε : ℚ), 0 < ε → ∀ x ∈ S,
      pathMean S K n (fun l => if ε ≤ |sumAlong f (x :: l) / (x :: l).length - ∑ y ∈ S, π y * f y| then 1 else 0) x ≤ C / ((n + 1 : ℕ) * ε ^ 2) := by
  set μ := ∑ y ∈ S, π y * f y with hμ
  have hmean : ∑ y ∈ S, π y * (f y - μ) = 0 := by
    have : ∀ y ∈ S, π y * (f y - μ) = π y * f y - μ * π y := fun y _ => by ring
    rw [Finset.sum_congr rfl this, Finset.sum_sub_distrib, ← Finset.mul_sum, hπ.sum, ← hμ]
    ring
  obtain ⟨g, hg⟩ := exists_poisson hK hπ hc hmean
  refine ⟨4 * (∑ y ∈ S, |g y|) ^ 2, by positivity, fun n ε hε x hx => ?_⟩
  exact chebyshev_path hK n hx (square_linear hK (fun y hy => Finset.single_le_sum (f := fun y => |g y|) (fun y _ => abs_nonneg _) hy) hg n hx) ε hε

/-! ### Chains that are lost in a step with a small probability -/

/-- If every step of `K'` has at most the probability of the step of `K`, and at least `c` times this probability, the means of a function that is not
negative compare in the same way. -/
theorem pathMean_dominated {K' : α → α → ℚ} {c : ℚ} (hc : 0 ≤ c) (h0 : ∀ x ∈ S, ∀ y ∈ S, 0 ≤ K' x y) (hle : ∀ x ∈ S, ∀ y ∈ S, K' x y ≤ K x y)
    (hge : ∀ x ∈ S, ∀ y ∈ S, c * K x y ≤ K' x y) (n : ℕ) : ∀ {F : List α → ℚ}, (∀ l, 0 ≤ F l) → ∀ x ∈ S,
      0 ≤ pathMean S K' n F x ∧ pathMean S K' n F x ≤ pathMean S K n F x ∧ c ^ n * pathMean S K n F x ≤ pathMean S K' n F x := by
  induction n with
  | zero => intro F hF x _; simp [pathMean, hF]
  | succ n ih =>
    intro F hF x hx
    have hF' : ∀ y l, 0 ≤ F (y :: l) := fun y l => hF _
    refine ⟨Finset.sum_nonneg (fun y hy => mul_nonneg (h0 x hx y hy) (ih (hF' y) y hy).1), Finset.sum_le_sum (fun y hy => ?_), ?_⟩
    · obtain ⟨h1, h2, -⟩ := ih (hF' y) y hy
      exact mul_le_mul (hle x hx y hy) h2 h1 ((h0 x hx y hy).trans (hle x hx y hy))
    · show c ^ (n + 1) * ∑ y ∈ S, _ ≤ ∑ y ∈ S, _
      rw [Finset.mul_sum]
      refine Finset.sum_le_sum (fun y hy => ?_)
      obtain ⟨h1, h2, h3⟩ := ih (hF' y) y hy
      calc _ = (c * K x y) * (c ^ n * pathMean S K n (fun l => F (y :: l)) y) := by rw [pow_succ]; ring
        _ ≤ _ := mul_le_mul (hge x hx y hy) h3 (mul_nonneg (pow_nonneg hc n) (h1.trans h2)) (h0 x hx y hy)

end GC

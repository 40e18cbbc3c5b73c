import Mathlib.Algebra.BigOperators.Field
import Mathlib.Algebra.Order.BigOperators.Group.Finset
import Mathlib.Algebra.Order.BigOperators.Ring.Finset
import Mathlib.Algebra.Order.Archimedean.Basic
import Mathlib.Data.Finset.Max
import Mathlib.Data.Rat.Cast.Order
import Mathlib.Logic.Relation
import Mathlib.Tactic.Linarith
import Mathlib.Tactic.Ring
import Mathlib.Tactic.Positivity

/-!
# Markov chains with finitely many states

Nothing in this file is about GerryChain: mean values along a chain, convergence to the stationary distribution, and the law of large numbers.
-/

set_option linter.unusedSectionVars false
set_option autoImplicit false

namespace GC

variable {α : Type}

/-- transition probabilities between the states `S` -/
structure IsKernel (S : Finset α) (K : α → α → ℚ) : Prop where
  nonneg : ∀ x ∈ S, ∀ y ∈ S, 0 ≤ K x y
  sum : ∀ x ∈ S, ∑ y ∈ S, K x y = 1

/-- the mean of `f` after `n` steps from `x` -/
def after (S : Finset α) (K : α → α → ℚ) : ℕ → (α → ℚ) → α → ℚ
  | 0, f, x => f x
  | n + 1, f, x => ∑ y ∈ S, K x y * after S K n f y

/-- the mean of a function of the next `n` states, in their order -/
def pathMean (S : Finset α) (K : α → α → ℚ) : ℕ → (List α → ℚ) → α → ℚ
  | 0, f, _ => f []
  | n + 1, f, x => ∑ y ∈ S, K x y * pathMean S K n (fun l => f (y :: l)) y

variable {S : Finset α} {K : α → α → ℚ} {π : α → ℚ}

theorem after_congr {f g : α → ℚ} (h : ∀ x ∈ S, f x = g x) (n : ℕ) : ∀ x ∈ S, after S K n f x = after S K n g x := by
  induction n with
  | zero => exact h
  | succ n ih =>
    intro x _
    exact Finset.sum_congr rfl (fun y hy => by rw [ih y hy])

theorem after_add (m n : ℕ) (f : α → ℚ) (x : α) : after S K (m + n) f x = after S K m (after S K n f) x := by
  induction m generalizing x with
  | zero => rw [Nat.zero_add]; rfl
  | succ m ih =>
    rw [Nat.succ_add]
    exact Finset.sum_congr rfl (fun y _ => by rw [ih])

theorem after_const (hK : IsKernel S K) (c : ℚ) (n : ℕ) : ∀ x ∈ S, after S K n (fun _ => c) x = c := by
  induction n with
  | zero => intro x _; rfl
  | succ n ih =>
    intro x hx
    show ∑ y ∈ S, K x y * after S K n (fun _ => c) y = c
    rw [Finset.sum_congr rfl (fun y hy => by rw [ih y hy]), ← Finset.sum_mul, hK.sum x hx, one_mul]

theorem after_lin (a b : ℚ) (f g : α → ℚ) (n : ℕ) (x : α) :
    after S K n (fun y => a * f y + b * g y) x = a * after S K n f x + b * after S K n g x := by
  induction n generalizing x with
  | zero => rfl
  | succ n ih =>
    show ∑ y ∈ S, K x y * after S K n _ y = a * ∑ y ∈ S, _ + b * ∑ y ∈ S, _
    rw [Finset.mul_sum, Finset.mul_sum, ← Finset.sum_add_distrib]
    refine Finset.sum_congr rfl (fun y _ => ?_)
    rw [ih]
    ring

theorem after_nonneg (hK : IsKernel S K) {f : α → ℚ} (hf : ∀ x ∈ S, 0 ≤ f x) (n : ℕ) : ∀ x ∈ S, 0 ≤ after S K n f x := by
  induction n with
  | zero => exact hf
  | succ n ih =>
    intro x hx
    exact Finset.sum_nonneg (fun y hy => mul_nonneg (hK.nonneg x hx y hy) (ih y hy))

theorem after_abs (hK : IsKernel S K) {f : α → ℚ} {B : ℚ} (hf : ∀ x ∈ S, |f x| ≤ B) (n : ℕ) : ∀ x ∈ S, |after S K n f x| ≤ B := by
  intro x hx
  have h1 := after_nonneg hK (f := fun y => 1 * (fun _ => B) y + (-1) * f y) (fun y hy => by have := (abs_le.1 (hf y hy)).2; simp only; linarith) n x hx
  have h2 := after_nonneg hK (f := fun y => 1 * (fun _ => B) y + 1 * f y) (fun y hy => by have := (abs_le.1 (hf y hy)).1; simp only; linarith) n x hx
  rw [after_lin, after_const hK B n x hx] at h1 h2
  rw [abs_le]
  constructor <;> linarith

/-- weights that one step does not change -/
structure Invariant (S : Finset α) (K : α → α → ℚ) (π : α → ℚ) : Prop where
  nonneg : ∀ x ∈ S, 0 ≤ π x
  sum : ∑ x ∈ S, π x = 1
  step : ∀ y ∈ S, ∑ x ∈ S, π x * K x y = π y

/-- weights with detailed balance -/
theorem Invariant.of_balance (hK : IsKernel S K) (h0 : ∀ x ∈ S, 0 ≤ π x) (h1 : ∑ x ∈ S, π x = 1) (hb : ∀ x ∈ S, ∀ y ∈ S, π x * K x y = π y * K y x) :
    Invariant S K π := by
  refine ⟨h0, h1, fun y hy => ?_⟩
  rw [Finset.sum_congr rfl (fun x hx => hb x hx y hy), ← Finset.mul_sum, hK.sum y hy, mul_one]

theorem Invariant.le_one (hπ : Invariant S K π) : ∀ x ∈ S, π x ≤ 1 := by
  intro x hx
  rw [← hπ.sum]
  exact Finset.single_le_sum hπ.nonneg hx

theorem Invariant.after (hπ : Invariant S K π) (f : α → ℚ) (n : ℕ) : ∑ x ∈ S, π x * after S K n f x = ∑ x ∈ S, π x * f x := by
  induction n with
  | zero => rfl
  | succ n ih =>
    rw [← ih]
    show ∑ x ∈ S, π x * ∑ y ∈ S, K x y * GC.after S K n f y = _
    simp only [Finset.mul_sum]
    rw [Finset.sum_comm]
    refine Finset.sum_congr rfl (fun y hy => ?_)
    rw [← hπ.step y hy, Finset.sum_mul]
    exact Finset.sum_congr rfl (fun x _ => by ring)

/-- after `m` steps the chain has forgotten its start with probability at least `δ` -/
structure Forgets (S : Finset α) (K : α → α → ℚ) (π : α → ℚ) (m : ℕ) (δ : ℚ) : Prop where
  pos : 0 < m
  le_one : δ ≤ 1
  minor : ∀ x ∈ S, ∀ f : α → ℚ, (∀ y ∈ S, 0 ≤ f y) → δ * ∑ y ∈ S, π y * f y ≤ after S K m f x

theorem Forgets.shrink {m : ℕ} {δ : ℚ} (h : Forgets S K π m δ) (hK : IsKernel S K) (hπ : Invariant S K π) {f : α → ℚ} {B : ℚ}
    (hf : ∀ x ∈ S, |f x| ≤ B) (hmean : ∑ x ∈ S, π x * f x = 0) : ∀ x ∈ S, |GC.after S K m f x| ≤ (1 - δ) * B := by
  intro x hx
  have h1 := h.minor x hx (fun y => 1 * (fun _ => B) y + (-1) * f y) (fun y hy => by have := (abs_le.1 (hf y hy)).2; simp only; linarith)
  have h2 := h.minor x hx (fun y => 1 * (fun _ => B) y + 1 * f y) (fun y hy => by have := (abs_le.1 (hf y hy)).1; simp only; linarith)
  rw [after_lin, after_const hK B m x hx] at h1 h2
  have e1 : ∑ y ∈ S, π y * (1 * B + (-1) * f y) = B := by
    have : ∀ y ∈ S, π y * (1 * B + (-1) * f y) = B * π y - π y * f y := fun y _ => by ring
    rw [Finset.sum_congr rfl this, Finset.sum_sub_distrib, ← Finset.mul_sum, hπ.sum, hmean]
    ring
  have e2 : ∑ y ∈ S, π y * (1 * B + 1 * f y) = B := by
    have : ∀ y ∈ S, π y * (1 * B + 1 * f y) = B * π y + π y * f y := fun y _ => by ring
    rw [Finset.sum_congr rfl this, Finset.sum_add_distrib, ← Finset.mul_sum, hπ.sum, hmean]
    ring
  rw [e1] at h1
  rw [e2] at h2
  rw [abs_le]
  constructor <;> linarith

/-- the mean of a centred function decreases geometrically -/
theorem Forgets.decay {m : ℕ} {δ : ℚ} (h : Forgets S K π m δ) (hK : IsKernel S K) (hπ : Invariant S K π) {f : α → ℚ} {B : ℚ}
    (hf : ∀ x ∈ S, |f x| ≤ B) (hmean : ∑ x ∈ S, π x * f x = 0) (n : ℕ) : ∀ x ∈ S, |GC.after S K n f x| ≤ (1 - δ) ^ (n / m) * B := by
  induction n using Nat.strong_induction_on with
  | _ n ih =>
    intro x hx
    by_cases hn : n < m
    · rw [Nat.div_eq_of_lt hn, pow_zero, one_mul]
      exact after_abs hK hf n x hx
    · have e : n = m + (n - m) := by omega
      have hlt : n - m < n := by have := h.pos; omega
      have hd : n / m = (n - m) / m + 1 := by
        rw [Nat.div_eq_sub_div h.pos (by omega)]
      rw [hd, pow_succ]
      have := h.shrink hK hπ (ih (n - m) hlt) (by rw [hπ.after, hmean]) x hx
      rw [← after_add, ← e] at this
      calc _ ≤ (1 - δ) * ((1 - δ) ^ ((n - m) / m) * B) := this
        _ = _ := by ring

/-- the mean after `n` steps converges geometrically to the mean with the invariant weights -/
theorem Forgets.converges {m : ℕ} {δ : ℚ} (h : Forgets S K π m δ) (hK : IsKernel S K) (hπ : Invariant S K π) {f : α → ℚ} {B : ℚ}
    (hf : ∀ x ∈ S, |f x - ∑ y ∈ S, π y * f y| ≤ B) (n : ℕ) :
    ∀ x ∈ S, |GC.after S K n f x - ∑ y ∈ S, π y * f y| ≤ (1 - δ) ^ (n / m) * B := by
  intro x hx
  set μ := ∑ y ∈ S, π y * f y with hμ
  have := h.decay hK hπ (f := fun y => 1 * f y + (-1) * (fun _ => μ) y) (B := B) (fun y hy => by
    have := hf y hy
    simp only
    rwa [one_mul, neg_one_mul, ← sub_eq_add_neg]) (by
    have : ∀ y ∈ S, π y * (1 * f y + (-1) * μ) = π y * f y - μ * π y := fun y _ => by ring
    rw [Finset.sum_congr rfl this, Finset.sum_sub_distrib, ← Finset.mul_sum, hπ.sum, ← hμ]
    ring) n x hx
  rw [after_lin, after_const hK μ n x hx] at this
  rwa [one_mul, neg_one_mul, ← sub_eq_add_neg] at this

/-- A chain that in every step either stays or starts anew from the weights `π`: after `n` steps it has started anew with probability `1 - (1 - δ) ^ n`. -/
theorem after_renewal [DecidableEq α] {δ : ℚ} (hπ : ∑ x ∈ S, π x = 1) (hK : ∀ x ∈ S, ∀ y ∈ S, K x y = (1 - δ) * (if x = y then 1 else 0) + δ * π y) (f : α → ℚ)
    (n : ℕ) : ∀ x ∈ S, after S K n f x = (1 - δ) ^ n * f x + (1 - (1 - δ) ^ n) * ∑ y ∈ S, π y * f y := by
  induction n with
  | zero => intro x _; simp [after]
  | succ n ih =>
    intro x hx
    show ∑ y ∈ S, K x y * after S K n f y = _
    set μ := ∑ y ∈ S, π y * f y with hμ
    have h : ∀ y ∈ S, K x y * after S K n f y = (1 - δ) * ((if x = y then 1 else 0) * ((1 - δ) ^ n * f y + (1 - (1 - δ) ^ n) * μ)) +
        (δ * (1 - δ) ^ n * (π y * f y) + δ * ((1 - (1 - δ) ^ n) * μ) * π y) := by
      intro y hy
      rw [ih y hy, hK x hx y hy]
      ring
    rw [Finset.sum_congr rfl h, Finset.sum_add_distrib, Finset.sum_add_distrib, ← Finset.mul_sum, ← Finset.mul_sum, ← Finset.mul_sum, hπ, ← hμ,
      Finset.sum_eq_single_of_mem x hx]
    · rw [if_pos rfl]
      ring
    · intro y _ hy
      rw [if_neg (Ne.symm hy), zero_mul]

/-! ### Chains that can wait forget -/

section lazy
variable (hK : IsKernel S K) (hlazy : ∀ x ∈ S, 0 < K x x)

open Classical in
/-- the indicator of a state -/
noncomputable def atState (y : α) : α → ℚ := fun x => if x = y then 1 else 0

theorem atState_nonneg (y x : α) : 0 ≤ atState y x := by
  unfold atState
  split_ifs <;> norm_num

theorem atState_self (y : α) : atState y y = 1 := by simp [atState]

theorem after_step_pos (hK : IsKernel S K) {f : α → ℚ} (hf : ∀ x ∈ S, 0 ≤ f x) {n : ℕ} {x y : α} (hx : x ∈ S) (hy : y ∈ S) (hxy : 0 < K x y)
    (h : 0 < after S K n f y) : 0 < after S K (n + 1) f x := by
  have := Finset.single_le_sum (f := fun z => K x z * after S K n f z) (fun z hz => mul_nonneg (hK.nonneg x hx z hz) (after_nonneg hK hf n z hz)) hy
  exact (mul_pos hxy h).trans_le this

theorem after_wait_pos (hK : IsKernel S K) (hlazy : ∀ x ∈ S, 0 < K x x) {f : α → ℚ} (hf : ∀ x ∈ S, 0 ≤ f x) {n m : ℕ} (hnm : n ≤ m) {x : α} (hx : x ∈ S)
    (h : 0 < after S K n f x) : 0 < after S K m f x := by
  induction m, hnm using Nat.le_induction with
  | base => exact h
  | succ m _ ih => exact after_step_pos hK hf hx hx (hlazy x hx) ih

/-- if after some number of steps every state is possible, whatever the first one is, the chain forgets where it started -/
theorem forgets_of_pos (hπ : Invariant S K π) {m : ℕ} (hm1 : ∀ x ∈ S, ∀ y ∈ S, 0 < after S K (m + 1) (atState y) x) :
    ∃ δ, 0 < δ ∧ Forgets S K π (m + 1) δ := by
  classical
  have hδ : ∃ δ : ℚ, 0 < δ ∧ δ ≤ 1 ∧ ∀ x ∈ S, ∀ y ∈ S, δ ≤ after S K (m + 1) (atState y) x := by
    have hfin : ∀ T : Finset (α × α), (∀ p ∈ T, p.1 ∈ S ∧ p.2 ∈ S) → ∃ δ : ℚ, 0 < δ ∧ δ ≤ 1 ∧ ∀ p ∈ T, δ ≤ after S K (m + 1) (atState p.2) p.1 := by
      intro T
      induction T using Finset.induction_on with
      | empty => intro _; exact ⟨1, by norm_num, le_rfl, by simp⟩
      | insert p T hp ih =>
        intro hT
        obtain ⟨δ, h1, h2, h3⟩ := ih (fun q hq => hT q (Finset.mem_insert_of_mem hq))
        obtain ⟨k1, k2⟩ := hT p (Finset.mem_insert_self p T)
        refine ⟨min δ (after S K (m + 1) (atState p.2) p.1), lt_min h1 (hm1 _ k1 _ k2), (min_le_left _ _).trans h2, fun q hq => ?_⟩
        rcases Finset.mem_insert.1 hq with rfl | hq
        · exact min_le_right _ _
        · exact (min_le_left _ _).trans (h3 q hq)
    obtain ⟨δ, h1, h2, h3⟩ := hfin (S ×ˢ S) (fun p hp => Finset.mem_product.1 hp)
    exact ⟨δ, h1, h2, fun x hx y hy => h3 (x, y) (Finset.mem_product.2 ⟨hx, hy⟩)⟩
  obtain ⟨δ, hδ0, hδ1, hδ⟩ := hδ
  refine ⟨δ, hδ0, Nat.succ_pos m, hδ1, fun x hx f hf => ?_⟩
  have hexp : ∀ n, ∀ x ∈ S, after S K n f x = ∑ y ∈ S, after S K n (atState y) x * f y := by
    intro n
    induction n with
    | zero =>
      intro x hx
      show f x = ∑ y ∈ S, atState y x * f y
      rw [Finset.sum_eq_single_of_mem x hx]
      · rw [atState_self, one_mul]
      · intro y _ hyx
        simp [atState, Ne.symm hyx]
    | succ n ih =>
      intro x hx
      show ∑ z ∈ S, K x z * after S K n f z = ∑ y ∈ S, (∑ z ∈ S, K x z * after S K n (atState y) z) * f y
      rw [Finset.sum_congr rfl (fun z hz => by rw [ih z hz, Finset.mul_sum]), Finset.sum_comm]
      refine Finset.sum_congr rfl (fun y _ => ?_)
      rw [Finset.sum_mul]
      exact Finset.sum_congr rfl (fun z _ => by ring)
  rw [hexp (m + 1) x hx, Finset.mul_sum]
  refine Finset.sum_le_sum (fun y hy => ?_)
  have h1 := hδ x hx y hy
  have h2 := hπ.le_one y hy
  have h3 := hf y hy
  have h4 := hπ.nonneg y hy
  rw [← mul_assoc]
  refine mul_le_mul_of_nonneg_right ?_ h3
  calc δ * π y ≤ δ * 1 := mul_le_mul_of_nonneg_left h2 hδ0.le
    _ ≤ _ := by rw [mul_one]; exact h1

theorem exists_forgets (hK : IsKernel S K) (hlazy : ∀ x ∈ S, 0 < K x x) (hπ : Invariant S K π)
    (hconn : ∀ x ∈ S, ∀ y ∈ S, Relation.ReflTransGen (fun u v => u ∈ S ∧ v ∈ S ∧ 0 < K u v) x y) :
    ∃ m δ, 0 < δ ∧ Forgets S K π m δ := by
  classical
  have hpos : ∀ x ∈ S, ∀ y ∈ S, ∃ n, 0 < after S K n (atState y) x := by
    intro x hx y hy
    have := hconn x hx y hy
    induction this using Relation.ReflTransGen.head_induction_on with
    | refl => exact ⟨0, by show 0 < atState y y; rw [atState_self]; norm_num⟩
    | head h1 h2 ih =>
      obtain ⟨hu, hv, huv⟩ := h1
      obtain ⟨n, hn⟩ := ih hv
      exact ⟨n + 1, after_step_pos hK (fun z _ => atState_nonneg y z) hu hv huv hn⟩
  have hall : ∃ m, ∀ x ∈ S, ∀ y ∈ S, 0 < after S K m (atState y) x := by
    choose! g hg using hpos
    refine ⟨S.sup (fun x => S.sup (g x)), fun x hx y hy => ?_⟩
    refine after_wait_pos hK hlazy (fun z _ => atState_nonneg y z) ?_ hx (hg x hx y hy)
    exact (Finset.le_sup (f := g x) hy).trans (Finset.le_sup (f := fun x => S.sup (g x)) hx)
  obtain ⟨m, hm⟩ := hall
  have hm1 : ∀ x ∈ S, ∀ y ∈ S, 0 < after S K (m + 1) (atState y) x := fun x hx y hy =>
    after_wait_pos hK hlazy (fun z _ => atState_nonneg y z) (Nat.le_succ m) hx (hm x hx y hy)
  obtain ⟨δ, h⟩ := forgets_of_pos hπ hm1
  exact ⟨m + 1, δ, h⟩

end lazy

/-! ### Paths -/

theorem pathMean_congr {f g : List α → ℚ} (n : ℕ) (h : ∀ l, l.length = n → f l = g l) (x : α) : pathMean S K n f x = pathMean S K n g x := by
  induction n generalizing f g x with
  | zero => exact h [] rfl
  | succ n ih => exact Finset.sum_congr rfl (fun y _ => by rw [ih (fun l hl => h (y :: l) (by simp [hl]))])

theorem pathMean_lin (a b : ℚ) (f g : List α → ℚ) (n : ℕ) (x : α) :
    pathMean S K n (fun l => a * f l + b * g l) x = a * pathMean S K n f x + b * pathMean S K n g x := by
  induction n generalizing f g x with
  | zero => rfl
  | succ n ih =>
    show ∑ y ∈ S, K x y * pathMean S K n _ y = a * ∑ y ∈ S, _ + b * ∑ y ∈ S, _
    rw [Finset.mul_sum, Finset.mul_sum, ← Finset.sum_add_distrib]
    refine Finset.sum_congr rfl (fun y _ => ?_)
    rw [ih (fun l => f (y :: l)) (fun l => g (y :: l))]
    ring

theorem pathMean_const (hK : IsKernel S K) (c : ℚ) (n : ℕ) : ∀ x ∈ S, pathMean S K n (fun _ => c) x = c := by
  induction n with
  | zero => intro x _; rfl
  | succ n ih =>
    intro x hx
    show ∑ y ∈ S, K x y * pathMean S K n (fun _ => c) y = c
    rw [Finset.sum_congr rfl (fun y hy => by rw [ih y hy]), ← Finset.sum_mul, hK.sum x hx, one_mul]

theorem pathMean_mono (hK : IsKernel S K) {f g : List α → ℚ} (n : ℕ) (h : ∀ l, l.length = n → (∀ y ∈ l, y ∈ S) → f l ≤ g l) :
    ∀ x ∈ S, pathMean S K n f x ≤ pathMean S K n g x := by
  induction n generalizing f g with
  | zero => intro x _; exact h [] rfl (by simp)
  | succ n ih =>
    intro x hx
    refine Finset.sum_le_sum (fun y hy => mul_le_mul_of_nonneg_left ?_ (hK.nonneg x hx y hy))
    refine ih (fun l hl hS => h (y :: l) (by simp [hl]) ?_) y hy
    intro z hz
    rcases List.mem_cons.1 hz with rfl | hz
    · exact hy
    · exact hS z hz

/-- states that are never reached do not matter -/
theorem pathMean_sub {T : Finset α} (hT : T ⊆ S) (h0 : ∀ x ∈ T, ∀ y ∈ S, y ∉ T → K x y = 0) (n : ℕ) (f : List α → ℚ) :
    ∀ x ∈ T, pathMean S K n f x = pathMean T K n f x := by
  induction n generalizing f with
  | zero => intro x _; rfl
  | succ n ih =>
    intro x hx
    show ∑ y ∈ S, K x y * pathMean S K n (fun l => f (y :: l)) y = ∑ y ∈ T, K x y * pathMean T K n (fun l => f (y :: l)) y
    rw [← Finset.sum_subset hT (fun y h1 h2 => by rw [h0 x hx y h1 h2, zero_mul])]
    exact Finset.sum_congr rfl (fun y hy => by rw [ih _ y hy])

/-- the state after the path -/
theorem pathMean_last (f : α → ℚ) (n : ℕ) (x : α) : pathMean S K n (fun l => f (l.getLast?.getD x)) x = after S K n f x := by
  induction n generalizing x with
  | zero => rfl
  | succ n ih =>
    refine Finset.sum_congr rfl (fun y _ => ?_)
    rw [← ih y]
    congr 1
    refine pathMean_congr n (fun l _ => ?_) y
    cases l with
    | nil => rfl
    | cons z l => simp [List.getLast?_cons_cons, List.getLast?_cons]

/-- the probability of one path -/
def pathProb (K : α → α → ℚ) : α → List α → ℚ
  | _, [] => 1
  | x, y :: l => K x y * pathProb K y l

theorem pathMean_path [DecidableEq α] (p : List α) (hp : ∀ y ∈ p, y ∈ S) (x : α) :
    pathMean S K p.length (fun l => if l = p then 1 else 0) x = pathProb K x p := by
  induction p generalizing x with
  | nil => simp [pathMean, pathProb]
  | cons y p ih =>
    have hy : y ∈ S := hp y (List.mem_cons_self ..)
    show ∑ z ∈ S, K x z * pathMean S K p.length (fun l => if z :: l = y :: p then 1 else 0) z = _
    rw [Finset.sum_eq_single_of_mem y hy]
    · rw [pathProb, ← ih (fun z hz => hp z (List.mem_cons_of_mem _ hz)) y]
      congr 1
      exact pathMean_congr _ (fun l _ => by simp) y
    · intro z _ hz
      have : pathMean S K p.length (fun l => if z :: l = y :: p then (1 : ℚ) else 0) z = pathMean S K p.length (fun l => 0 * 0 + 0 * 0) z :=
        pathMean_congr _ (fun l _ => by simp [hz]) z
      rw [this, pathMean_lin]
      ring

/-! ### The law of large numbers -/

/-- the sum of `f` over the path -/
def sumAlong (f : α → ℚ) (l : List α) : ℚ := (l.map f).sum

theorem pathMean_sum (hK : IsKernel S K) (f : α → ℚ) (n : ℕ) : ∀ x ∈ S,
    pathMean S K n (sumAlong f) x = ∑ i ∈ Finset.range n, after S K (i + 1) f x := by
  induction n with
  | zero => intro x _; rfl
  | succ n ih =>
    intro x hx
    show ∑ y ∈ S, K x y * pathMean S K n (fun l => sumAlong f (y :: l)) y = _
    have h : ∀ y ∈ S, K x y * pathMean S K n (fun l => sumAlong f (y :: l)) y = K x y * f y + ∑ i ∈ Finset.range n, K x y * after S K (i + 1) f y := by
      intro y hy
      have e : pathMean S K n (fun l => sumAlong f (y :: l)) y = pathMean S K n (fun l => f y * (fun _ => 1) l + 1 * sumAlong f l) y :=
        pathMean_congr n (fun l _ => by simp [sumAlong]) y
      rw [e, pathMean_lin, pathMean_const hK 1 n y hy, ih y hy, ← Finset.mul_sum]
      ring
    rw [Finset.sum_congr rfl h, Finset.sum_add_distrib, Finset.sum_comm, Finset.sum_range_succ', add_comm]
    rfl

/-- the sum of the means of a centred function stays bounded -/
theorem Forgets.sum_bounded {m : ℕ} {δ : ℚ} (h : Forgets S K π m δ) (hδ : 0 < δ) (hK : IsKernel S K) (hπ : Invariant S K π) (n : ℕ) :
    ∀ {f : α → ℚ} {B : ℚ}, (∀ x ∈ S, |f x| ≤ B) → ∑ x ∈ S, π x * f x = 0 →
      ∀ x ∈ S, |∑ i ∈ Finset.range n, GC.after S K i f x| ≤ m * B / δ := by
  induction n using Nat.strong_induction_on with
  | _ n ih =>
    intro f B hf hmean x hx
    have hB : 0 ≤ B := (abs_nonneg _).trans (hf x hx)
    have hshort : ∀ j, |∑ i ∈ Finset.range j, GC.after S K i f x| ≤ j * B := by
      intro j
      refine (Finset.abs_sum_le_sum_abs _ _).trans ?_
      calc _ ≤ ∑ i ∈ Finset.range j, B := Finset.sum_le_sum (fun i _ => after_abs hK hf i x hx)
        _ = j * B := by simp
    by_cases hn : n ≤ m
    · refine (hshort n).trans ?_
      rw [le_div_iff₀ hδ]
      have h1 : (n : ℚ) ≤ m := by exact_mod_cast hn
      have h2 := h.le_one
      calc (n : ℚ) * B * δ ≤ n * B * 1 := mul_le_mul_of_nonneg_left h2 (by positivity)
        _ ≤ m * B := by rw [mul_one]; exact mul_le_mul_of_nonneg_right h1 hB
    · have e : n = m + (n - m) := by omega
      have hlt : n - m < n := by have := h.pos; omega
      rw [e, Finset.sum_range_add]
      have h2 := ih (n - m) hlt (f := GC.after S K m f) (h.shrink hK hπ hf hmean) (by rw [hπ.after, hmean]) x hx
      have e2 : ∑ i ∈ Finset.range (n - m), GC.after S K (m + i) f x = ∑ i ∈ Finset.range (n - m), GC.after S K i (GC.after S K m f) x :=
        Finset.sum_congr rfl (fun i _ => by rw [← after_add, Nat.add_comm])
      rw [e2]
      refine (abs_add_le _ _).trans ?_
      have h1 := hshort m
      have : (m : ℚ) * B / δ = m * B + m * ((1 - δ) * B) / δ := by
        have := hδ.ne'
        rw [eq_comm, ← sub_eq_zero]
        have e3 : (m : ℚ) * B = m * B * δ / δ := by rw [mul_div_assoc, div_self this, mul_one]
        rw [e3, ← add_div, ← sub_div]
        rw [div_eq_zero_iff]
        left
        rw [mul_div_assoc, div_self this]
        ring
      rw [this]
      linarith

/-- the mean square of the sum of a centred function, with one more state at the beginning -/
theorem Forgets.square_cons {m : ℕ} {δ : ℚ} (h : Forgets S K π m δ) (hδ : 0 < δ) (hK : IsKernel S K) (hπ : Invariant S K π) {f : α → ℚ} {B : ℚ}
    (hf : ∀ x ∈ S, |f x| ≤ B) (hmean : ∑ x ∈ S, π x * f x = 0) {n : ℕ} {y : α} (hy : y ∈ S)
    (h3 : pathMean S K n (fun l => sumAlong f l ^ 2) y ≤ n * (B ^ 2 * (1 + 2 * m / δ))) :
    pathMean S K n (fun l => sumAlong f (y :: l) ^ 2) y ≤ ((n + 1 : ℕ) : ℚ) * (B ^ 2 * (1 + 2 * m / δ)) := by
  have hB : 0 ≤ B := (abs_nonneg _).trans (hf y hy)
  have e : pathMean S K n (fun l => sumAlong f (y :: l) ^ 2) y =
      pathMean S K n (fun l => 1 * (fun l => f y ^ 2 * (fun _ => 1) l + 2 * f y * sumAlong f l) l + 1 * (fun l => sumAlong f l ^ 2) l) y :=
    pathMean_congr n (fun l _ => by simp only [sumAlong, List.map_cons, List.sum_cons]; ring) y
  rw [e, pathMean_lin, pathMean_lin, pathMean_const hK 1 n y hy, pathMean_sum hK f n y hy]
  have h1 : ∑ i ∈ Finset.range n, GC.after S K (i + 1) f y = ∑ i ∈ Finset.range n, GC.after S K i (GC.after S K 1 f) y :=
    Finset.sum_congr rfl (fun i _ => after_add i 1 f y)
  have h2 := h.sum_bounded hδ hK hπ n (f := GC.after S K 1 f) (after_abs hK hf 1) (by rw [hπ.after, hmean]) y hy
  rw [h1]
  set A := ∑ i ∈ Finset.range n, GC.after S K i (GC.after S K 1 f) y
  have h4 : f y ^ 2 ≤ B ^ 2 := sq_le_sq' (abs_le.1 (hf y hy)).1 (abs_le.1 (hf y hy)).2
  have h5 : f y * A ≤ B * (m * B / δ) :=
    (le_abs_self _).trans (by rw [abs_mul]; exact mul_le_mul (hf y hy) h2 (abs_nonneg _) hB)
  push_cast
  have e2 : B ^ 2 * (1 + 2 * m / δ) = B ^ 2 + 2 * (B * (m * B / δ)) := by ring
  rw [e2] at h3 ⊢
  linarith

/-- the mean square of the sum of a centred function along a path grows only linearly -/
theorem Forgets.square {m : ℕ} {δ : ℚ} (h : Forgets S K π m δ) (hδ : 0 < δ) (hK : IsKernel S K) (hπ : Invariant S K π) {f : α → ℚ} {B : ℚ}
    (hf : ∀ x ∈ S, |f x| ≤ B) (hmean : ∑ x ∈ S, π x * f x = 0) (n : ℕ) :
    ∀ x ∈ S, pathMean S K n (fun l => sumAlong f l ^ 2) x ≤ n * (B ^ 2 * (1 + 2 * m / δ)) := by
  induction n with
  | zero => intro x _; simp [pathMean, sumAlong]
  | succ n ih =>
    intro x hx
    show ∑ y ∈ S, K x y * pathMean S K n (fun l => sumAlong f (y :: l) ^ 2) y ≤ _
    calc _ ≤ ∑ y ∈ S, K x y * (((n + 1 : ℕ) : ℚ) * (B ^ 2 * (1 + 2 * m / δ))) :=
          Finset.sum_le_sum (fun y hy => mul_le_mul_of_nonneg_left (h.square_cons hδ hK hπ hf hmean hy (ih y hy)) (hK.nonneg x hx y hy))
      _ = _ := by rw [← Finset.sum_mul, hK.sum x hx, one_mul]

theorem sumAlong_sub (f : α → ℚ) (μ : ℚ) (l : List α) : sumAlong (fun y => f y - μ) l = sumAlong f l - l.length * μ := by
  induction l with
  | nil => simp [sumAlong]
  | cons y l ih =>
    have e1 : sumAlong (fun y => f y - μ) (y :: l) = (f y - μ) + sumAlong (fun y => f y - μ) l := by simp [sumAlong]
    have e2 : sumAlong f (y :: l) = f y + sumAlong f l := by simp [sumAlong]
    rw [e1, e2, ih, List.length_cons]
    push_cast
    ring

/-- **law of large numbers**: the probability that the average over the first state and `n` further ones is off by `ε` or more decreases at least like `1/n` -/
theorem Forgets.large_numbers {m : ℕ} {δ : ℚ} (h : Forgets S K π m δ) (hδ : 0 < δ) (hK : IsKernel S K) (hπ : Invariant S K π) {f : α → ℚ} {B : ℚ}
    (hf : ∀ x ∈ S, |f x - ∑ y ∈ S, π y * f y| ≤ B) (n : ℕ) (ε : ℚ) (hε : 0 < ε) :
    ∀ x ∈ S, pathMean S K n (fun l => if ε ≤ |sumAlong f (x :: l) / (x :: l).length - ∑ y ∈ S, π y * f y| then 1 else 0) x ≤
      B ^ 2 * (1 + 2 * m / δ) / ((n + 1 : ℕ) * ε ^ 2) := by
  intro x hx
  set μ := ∑ y ∈ S, π y * f y with hμ
  have hn' : (0 : ℚ) < ((n + 1 : ℕ) : ℚ) := by exact_mod_cast Nat.succ_pos n
  have hmean : ∑ y ∈ S, π y * (f y - μ) = 0 := by
    have : ∀ y ∈ S, π y * (f y - μ) = π y * f y - μ * π y := fun y _ => by ring
    rw [Finset.sum_congr rfl this, Finset.sum_sub_distrib, ← Finset.mul_sum, hπ.sum, ← hμ]
    ring
  have hsq := h.square_cons hδ hK hπ (f := fun y => f y - μ) hf hmean hx (h.square hδ hK hπ hf hmean n x hx)
  have hle : pathMean S K n (fun l => if ε ≤ |sumAlong f (x :: l) / (x :: l).length - μ| then (1 : ℚ) else 0) x ≤
      pathMean S K n (fun l => 1 / ((n + 1 : ℕ) * ε) ^ 2 * (fun l => sumAlong (fun y => f y - μ) (x :: l) ^ 2) l + 0 * (fun _ => (0 : ℚ)) l) x := by
    refine pathMean_mono hK n (fun l hl _ => ?_) x hx
    have hlen : (((x :: l).length : ℕ) : ℚ) = ((n + 1 : ℕ) : ℚ) := by rw [List.length_cons, hl]
    have hs : sumAlong (fun y => f y - μ) (x :: l) = ((n + 1 : ℕ) : ℚ) * (sumAlong f (x :: l) / ((n + 1 : ℕ) : ℚ) - μ) := by
      rw [sumAlong_sub, hlen, mul_sub, mul_div_cancel₀ _ hn'.ne']
    simp only [zero_mul, add_zero]
    rw [hs, hlen]
    split_ifs with hc
    · rw [one_div, ← div_eq_inv_mul, le_div_iff₀ (by positivity), one_mul, mul_pow, mul_pow]
      refine mul_le_mul_of_nonneg_left ?_ (by positivity)
      rw [← sq_abs (_ - μ)]
      exact pow_le_pow_left₀ hε.le hc 2
    · positivity
  refine hle.trans ?_
  rw [pathMean_lin, zero_mul, add_zero]
  calc _ ≤ 1 / (((n + 1 : ℕ) : ℚ) * ε) ^ 2 * (((n + 1 : ℕ) : ℚ) * (B ^ 2 * (1 + 2 * m / δ))) := mul_le_mul_of_nonneg_left hsq (by positivity)
    _ = _ := by
      have h1 := hn'.ne'
      rw [mul_pow, one_div, ← div_eq_inv_mul, pow_two (((n + 1 : ℕ) : ℚ)), mul_assoc, mul_div_mul_left _ _ h1]

end GC

import Verif.Lemmas.KruskalMin
import Verif.Props.Retry
import Mathlib.Data.Fin.Tuple.Sort
import Mathlib.Data.Fintype.CardEmbedding
import Mathlib.Data.Fintype.Perm
import Mathlib.Data.List.NodupEquivFin

/-!
# Counting the random numbers that lead to a tree

Different numbers: every order of the edges comes from the same number of draws.  Equal numbers are rare.
-/

set_option linter.unusedSectionVars false
set_option autoImplicit false

namespace GC

open Finset

/-! ### Orders -/

theorem sort_eq_iff_strict {m N : ℕ} {τ : Fin m → Fin N} {σ : Equiv.Perm (Fin m)} :
    (Function.Injective τ ∧ Tuple.sort τ = σ) ↔ StrictMono (τ ∘ σ) := by
  constructor
  · rintro ⟨h, rfl⟩
    exact (Tuple.monotone_sort τ).strictMono_of_injective (h.comp (Equiv.injective _))
  · intro h
    have hi : Function.Injective τ := by
      have := h.injective.comp σ.symm.injective
      simpa [Function.comp_assoc] using this
    refine ⟨hi, (Tuple.eq_sort_iff.2 ⟨h.monotone, fun i j hij hf => ?_⟩).symm⟩
    exact absurd (σ.injective (hi hf)) (ne_of_lt hij)

/-- the number of increasing sequences -/
noncomputable def increasing (m N : ℕ) : ℕ := by
  classical
  exact #{u : Fin m → Fin N | StrictMono u}

open Classical in
theorem card_sorted {m N : ℕ} (σ : Equiv.Perm (Fin m)) : #{τ : Fin m → Fin N | StrictMono (τ ∘ σ)} = increasing m N := by
  unfold increasing
  refine Finset.card_equiv (Equiv.arrowCongr σ.symm (Equiv.refl _)) (fun τ => ?_)
  simp only [mem_filter, mem_univ, true_and]
  rfl

open Classical in
/-- Every order comes from the same number of sequences of different numbers. -/
theorem card_inj_order {m N : ℕ} (Q : (Fin m → ℕ) → Prop) (hQ : ∀ τ τ' : Fin m → ℕ, (∀ i j, τ i ≤ τ j ↔ τ' i ≤ τ' j) → (Q τ ↔ Q τ')) :
    #{τ : Fin m → Fin N | Function.Injective τ ∧ Q (fun i => (τ i : ℕ))} =
      #{σ : Equiv.Perm (Fin m) | Q (fun i => (σ i : ℕ))} * increasing m N := by
  have h1 : ∀ τ ∈ ({τ : Fin m → Fin N | Function.Injective τ ∧ Q (fun i => (τ i : ℕ))} : Finset _),
      (Tuple.sort τ)⁻¹ ∈ ({σ : Equiv.Perm (Fin m) | Q (fun i => (σ i : ℕ))} : Finset _) := by
    intro τ hτ
    rw [mem_filter] at hτ ⊢
    refine ⟨mem_univ _, (hQ _ _ (fun i j => ?_)).1 hτ.2.2⟩
    have hs : StrictMono (τ ∘ Tuple.sort τ) := sort_eq_iff_strict.1 ⟨hτ.2.1, rfl⟩
    have := hs.le_iff_le (a := (Tuple.sort τ).symm i) (b := (Tuple.sort τ).symm j)
    rw [Function.comp_apply, Function.comp_apply, (Tuple.sort τ).apply_symm_apply, (Tuple.sort τ).apply_symm_apply] at this
    exact this
  rw [Finset.card_eq_sum_card_fiberwise h1, Finset.sum_const_nat (m := increasing m N)]
  intro σ hσ
  rw [← card_sorted (N := N) σ⁻¹]
  congr 1
  ext τ
  simp only [mem_filter, mem_univ, true_and] at hσ ⊢
  constructor
  · rintro ⟨⟨hi, _⟩, h⟩
    exact sort_eq_iff_strict.1 ⟨hi, by rw [← h, inv_inv]⟩
  · intro h
    obtain ⟨hi, hs⟩ := sort_eq_iff_strict.2 h
    refine ⟨⟨hi, (hQ _ _ (fun i j => ?_)).2 hσ⟩, by rw [hs, inv_inv]⟩
    have h : StrictMono (τ ∘ σ.symm) := h
    have := h.le_iff_le (a := σ i) (b := σ j)
    rw [Function.comp_apply, Function.comp_apply, σ.symm_apply_apply, σ.symm_apply_apply] at this
    exact this

open Classical in
theorem card_injective (m N : ℕ) : #{τ : Fin m → Fin N | Function.Injective τ} = N.descFactorial m := by
  have := Fintype.card_embedding_eq (α := Fin m) (β := Fin N)
  rw [Fintype.card_fin, Fintype.card_fin] at this
  rw [← this, ← Fintype.card_subtype]
  exact Fintype.card_congr (Equiv.subtypeInjectiveEquivEmbedding _ _)

theorem descFactorial_eq (m N : ℕ) : N.descFactorial m = m.factorial * increasing m N := by
  classical
  have := card_inj_order (m := m) (N := N) (fun _ => True) (fun _ _ _ => Iff.rfl)
  simp only [and_true, Finset.filter_true, Finset.card_univ, Fintype.card_perm, Fintype.card_fin] at this
  rw [← this, card_injective]

/-! ### Equal numbers are rare -/

theorem descFactorial_ge {N : ℕ} (hN : 0 < N) (m : ℕ) : 1 - (m : ℚ) * (m - 1) / (2 * N) ≤ (N.descFactorial m : ℚ) / (N : ℚ) ^ m := by
  have hN' : (0 : ℚ) < N := by exact_mod_cast hN
  induction m with
  | zero => simp
  | succ m ih =>
    rw [Nat.descFactorial_succ, pow_succ]
    rcases le_or_gt N m with h | h
    · have : N - m = 0 := by omega
      rw [this, Nat.zero_mul, Nat.cast_zero, zero_div]
      have hm : (N : ℚ) ≤ m := by exact_mod_cast h
      have h1 : (1 : ℚ) ≤ N := by exact_mod_cast hN
      rw [sub_nonpos, le_div_iff₀ (by linarith)]
      push_cast
      nlinarith
    · have hm : (m : ℚ) < N := by exact_mod_cast h
      have e : (((N - m) * N.descFactorial m : ℕ) : ℚ) / (N ^ m * N) = (1 - m / N) * ((N.descFactorial m : ℚ) / N ^ m) := by
        rw [Nat.cast_mul, Nat.cast_sub h.le]
        field_simp
      rw [e]
      have hq : 0 ≤ (m : ℚ) / N := by positivity
      have hq1 : (m : ℚ) / N < 1 := (div_lt_one hN').2 hm
      have h2 : (1 - (m : ℚ) / N) * (1 - (m : ℚ) * (m - 1) / (2 * N)) ≤ (1 - m / N) * ((N.descFactorial m : ℚ) / N ^ m) :=
        mul_le_mul_of_nonneg_left ih (by linarith)
      refine le_trans ?_ h2
      have h3 : (0 : ℚ) ≤ m * (m - 1) / (2 * N) := by
        rcases Nat.eq_zero_or_pos m with rfl | h0
        · simp
        · have : (1 : ℚ) ≤ m := by exact_mod_cast h0
          refine div_nonneg (mul_nonneg (by linarith) (by linarith)) (by linarith)
      have h4 : ((m + 1 : ℕ) : ℚ) * ((m + 1 : ℕ) - 1) / (2 * N) = m / N + m * (m - 1) / (2 * N) := by
        push_cast
        field_simp
        ring
      rw [h4]
      nlinarith [mul_nonneg hq h3]

open Classical in
/-- the share of all sequences with a property of their order is close to the share of the orders -/
theorem share_close {m N : ℕ} (hN : 0 < N) (Q : (Fin m → ℕ) → Prop) (hQ : ∀ τ τ' : Fin m → ℕ, (∀ i j, τ i ≤ τ j ↔ τ' i ≤ τ' j) → (Q τ ↔ Q τ')) :
    |(#{τ : Fin m → Fin N | Q (fun i => (τ i : ℕ))} : ℚ) / (N : ℚ) ^ m - (#{σ : Equiv.Perm (Fin m) | Q (fun i => (σ i : ℕ))} : ℚ) / m.factorial|
      ≤ (m : ℚ) * (m - 1) / (2 * N) := by
  have hN' : (0 : ℚ) < N := by exact_mod_cast hN
  have hpow : (0 : ℚ) < (N : ℚ) ^ m := pow_pos hN' m
  have hfac : (0 : ℚ) < m.factorial := by exact_mod_cast Nat.factorial_pos m
  set r := #{σ : Equiv.Perm (Fin m) | Q (fun i => (σ i : ℕ))} with hr
  have hrle : r ≤ m.factorial := by
    refine (Finset.card_le_univ _).trans ?_
    rw [Fintype.card_perm, Fintype.card_fin]
  have hsplit : #{τ : Fin m → Fin N | Q (fun i => (τ i : ℕ))} =
      r * increasing m N + #{τ : Fin m → Fin N | ¬ Function.Injective τ ∧ Q (fun i => (τ i : ℕ))} := by
    rw [← card_inj_order Q hQ, ← Finset.card_filter_add_card_filter_not (s := ({τ : Fin m → Fin N | Q (fun i => (τ i : ℕ))} : Finset _)) (fun τ => Function.Injective τ),
      Finset.filter_filter, Finset.filter_filter]
    simp only [and_comm]
  set b := #{τ : Fin m → Fin N | ¬ Function.Injective τ ∧ Q (fun i => (τ i : ℕ))} with hb
  have hble : b + N.descFactorial m ≤ N ^ m := by
    have h1 : b ≤ #{τ : Fin m → Fin N | ¬ Function.Injective τ} := Finset.card_le_card (fun τ hτ => by
      rw [mem_filter] at hτ ⊢
      exact ⟨hτ.1, hτ.2.1⟩)
    have h2 := Finset.card_filter_add_card_filter_not (s := (Finset.univ : Finset (Fin m → Fin N))) (fun τ => Function.Injective τ)
    rw [card_injective, Finset.card_univ, Fintype.card_fun, Fintype.card_fin, Fintype.card_fin] at h2
    omega
  have hd := descFactorial_ge hN m
  set δ := (m : ℚ) * (m - 1) / (2 * N) with hδ
  rw [descFactorial_eq] at hble hd
  have hd' : (1 - δ) * (N : ℚ) ^ m ≤ (m.factorial : ℚ) * increasing m N := by
    rw [le_div_iff₀ hpow] at hd
    exact_mod_cast hd
  have hb' : (b : ℚ) + m.factorial * increasing m N ≤ (N : ℚ) ^ m := by exact_mod_cast hble
  have hr' : (r : ℚ) ≤ m.factorial := by exact_mod_cast hrle
  have hr0 : (0 : ℚ) ≤ r := by positivity
  have hb0 : (0 : ℚ) ≤ b := by positivity
  rw [hsplit]
  push_cast
  set q := (r : ℚ) / m.factorial with hq
  have hq0 : 0 ≤ q := div_nonneg hr0 hfac.le
  have hq1 : q ≤ 1 := (div_le_one hfac).2 hr'
  have hrq : (r : ℚ) = q * m.factorial := by rw [hq, div_mul_cancel₀ _ hfac.ne']
  set D := (m.factorial : ℚ) * increasing m N with hD
  have e1 : ((r : ℚ) * increasing m N + b) / (N : ℚ) ^ m - q = (q * D + b - q * (N : ℚ) ^ m) / (N : ℚ) ^ m := by
    rw [hrq, hD]
    field_simp
  rw [e1, abs_le]
  constructor
  · rw [le_div_iff₀ hpow]
    nlinarith [mul_nonneg hq0 hpow.le, mul_nonneg hq0 (sub_nonneg.2 hd')]
  · rw [div_le_iff₀ hpow]
    nlinarith [mul_nonneg hq0 (show 0 ≤ (N : ℚ) ^ m - D - b by linarith)]

end GC

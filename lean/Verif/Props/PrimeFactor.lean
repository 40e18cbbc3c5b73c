import Verif.Model.Seed
import Mathlib.Data.Nat.Prime.Basic
import Mathlib.Tactic.Linarith
import Mathlib.Tactic.Ring

/-!
# Largest prime factor below a ceiling (C43)
-/

set_option linter.unusedSectionVars false
set_option autoImplicit false

namespace GC

/-- the largest number with a property, `none` when there is none -/
def IsLargest (r : Option ℕ) (Q : ℕ → Prop) : Prop :=
  match r with
  | none => ∀ p, ¬ Q p
  | some q => Q q ∧ ∀ p, Q p → p ≤ q

theorem IsLargest.congr {r : Option ℕ} {Q Q' : ℕ → Prop} (h : IsLargest r Q) (e : ∀ p, Q p ↔ Q' p) : IsLargest r Q' := by
  rcases r with _ | q
  · exact fun p hp => h p ((e p).2 hp)
  · exact ⟨(e q).1 h.1, fun p hp => h.2 p ((e p).2 hp)⟩

theorem divideOut_spec (ceil i : ℕ) (hi : 2 ≤ i) : ∀ (k n : ℕ) (l : Option ℕ), 1 ≤ n → n < k →
    ∃ n' l', divideOut ceil i k n l = some (n', l') ∧ 1 ≤ n' ∧ n' ∣ n ∧ ¬ i ∣ n' ∧
      (∀ p, p.Prime → p ∣ n → p ∣ n' ∨ p ∣ i) ∧
      l' = if i ∣ n ∧ i ≤ ceil then some i else l := by
  intro k
  induction k with
  | zero => intro n l _ h; omega
  | succ k ih =>
    intro n l hn hk
    unfold divideOut
    by_cases hd : n % i = 0
    · rw [if_pos hd]
      have hdv : i ∣ n := Nat.dvd_of_mod_eq_zero hd
      have hpos : 1 ≤ n / i := Nat.div_pos (Nat.le_of_dvd hn hdv) (by omega)
      have hlt : n / i < n := Nat.div_lt_self hn hi
      obtain ⟨n', l', h1, h2, h3, h4, h5, h6⟩ := ih (n / i) (if i ≤ ceil then some i else l) hpos (by omega)
      refine ⟨n', l', h1, h2, h3.trans (Nat.div_dvd_of_dvd hdv), h4, ?_, ?_⟩
      · intro p hp hpn
        rw [← Nat.div_mul_cancel hdv] at hpn
        rcases (Nat.Prime.dvd_mul hp).1 hpn with h | h
        · exact h5 p hp h
        · exact Or.inr h
      · rw [h6]
        by_cases hc : i ≤ ceil
        · simp [hc, hdv]
        · simp [hc]
    · rw [if_neg hd]
      have : ¬ i ∣ n := fun h => hd (Nat.mod_eq_zero_of_dvd h)
      exact ⟨n, l, rfl, hn, dvd_rfl, this, fun p _ h => Or.inl h, by simp [this]⟩

theorem divideTwo_eq (ceil : ℕ) (hc : 2 ≤ ceil) : ∀ (k n : ℕ) (l : Option ℕ), divideTwo k n l = divideOut ceil 2 k n l := by
  intro k
  induction k with
  | zero => intros; rfl
  | succ k ih =>
    intro n l
    unfold divideTwo divideOut
    rw [if_pos hc, ih]

/-- all prime factors of `N` below `i` have been divided out of `n` -/
structure TrialInv (N ceil i n : ℕ) (l : Option ℕ) : Prop where
  pos : 1 ≤ n
  dvd : n ∣ N
  split : ∀ p, p.Prime → p ∣ N → p ∣ n ∨ p < i
  ge : ∀ p, p.Prime → p ∣ n → i ≤ p
  largest : IsLargest l (fun p => p.Prime ∧ p ∣ N ∧ p < i ∧ p ≤ ceil)

theorem trial_step {N ceil i n n' : ℕ} {l l' : Option ℕ} (h : TrialInv N ceil i n l) (hi : 2 ≤ i)
    (h2 : 1 ≤ n') (h3 : n' ∣ n) (h4 : ¬ i ∣ n') (h5 : ∀ p, p.Prime → p ∣ n → p ∣ n' ∨ p ∣ i)
    (h6 : l' = if i ∣ n ∧ i ≤ ceil then some i else l) : TrialInv N ceil (i + 1) n' l' := by
  have hip : i ∣ n → i.Prime := by
    intro hd
    have hm := Nat.minFac_prime (n := i) (by omega)
    have := h.ge _ hm ((Nat.minFac_dvd i).trans hd)
    have hle := Nat.minFac_le (n := i) (by omega)
    have : i.minFac = i := by omega
    exact this ▸ hm
  refine ⟨h2, h3.trans h.dvd, ?_, ?_, ?_⟩
  · intro p hp hpN
    rcases h.split p hp hpN with hpn | hlt
    · rcases h5 p hp hpn with h' | h'
      · exact Or.inl h'
      · exact Or.inr (Nat.lt_succ_of_le (Nat.le_of_dvd (by omega) h'))
    · exact Or.inr (by omega)
  · intro p hp hpn
    have := h.ge p hp (hpn.trans h3)
    rcases Nat.lt_or_ge i p with h' | h'
    · omega
    · have : p = i := by omega
      exact absurd (this ▸ hpn) h4
  · rw [h6]
    split
    · rename_i hc
      refine ⟨⟨hip hc.1, hc.1.trans h.dvd, by omega, hc.2⟩, ?_⟩
      rintro p ⟨_, _, hlt, _⟩
      omega
    · rename_i hc
      refine h.largest.congr ?_
      intro p
      constructor
      · rintro ⟨a, b, c, d⟩
        exact ⟨a, b, by omega, d⟩
      · rintro ⟨a, b, c, d⟩
        refine ⟨a, b, ?_, d⟩
        rcases Nat.lt_or_ge p i with h' | h'
        · exact h'
        · exfalso
          have hpi : p = i := by omega
          subst hpi
          rcases h.split p a b with hpn | hlt
          · exact hc ⟨hpn, d⟩
          · omega

theorem trial_skip {N ceil i n : ℕ} {l : Option ℕ} (h : TrialInv N ceil i n l) 
    (hi : 3 ≤ i) (heven : 2 ∣ i) : TrialInv N ceil (i + 1) n l := by
  have hnp : ¬ i.Prime := by
    intro hp
    have := (Nat.prime_dvd_prime_iff_eq Nat.prime_two hp).1 heven
    omega
  have hd : ¬ i ∣ n := by
    intro hd
    have := h.ge 2 Nat.prime_two (heven.trans hd)
    omega
  refine ⟨h.pos, h.dvd, ?_, ?_, ?_⟩
  · intro p hp hpN
    rcases h.split p hp hpN with h' | h'
    · exact Or.inl h'
    · exact Or.inr (by omega)
  · intro p hp hpn
    have := h.ge p hp hpn
    rcases Nat.lt_or_ge i p with h' | h'
    · omega
    · have : p = i := by omega
      exact absurd (this ▸ hp) hnp
  · refine h.largest.congr ?_
    intro p
    constructor
    · rintro ⟨a, b, c, d⟩
      exact ⟨a, b, by omega, d⟩
    · rintro ⟨a, b, c, d⟩
      refine ⟨a, b, ?_, d⟩
      rcases Nat.lt_or_ge p i with h' | h'
      · exact h'
      · have hpi : p = i := by omega
        exact absurd (hpi ▸ a) hnp

theorem oddLoop_spec (N ceil : ℕ) (hN : 1 ≤ N) : ∀ (k i n : ℕ) (l : Option ℕ), TrialInv N ceil i n l → 3 ≤ i → ¬ 2 ∣ i →
    1 ≤ k → N + 1 < i + k →
    ∃ i' n' l', oddLoop ceil k i n l = some (n', l') ∧ TrialInv N ceil i' n' l' ∧ n' < i' * i' := by
  intro k
  induction k with
  | zero => intro i n l _ _ _ h; omega
  | succ k ih =>
    intro i n l h hi hodd _ hk
    unfold oddLoop
    by_cases hii : i * i ≤ n
    · rw [if_pos hii]
      have hnN := Nat.le_of_dvd hN h.dvd
      have hi2 : i ≤ i * i := Nat.le_mul_self i
      obtain ⟨n', l', h1, h2, h3, h4, h5, h6⟩ := divideOut_spec ceil i (by omega) (n + 1) n l h.pos (by omega)
      rw [h1]
      simp only
      have hs := trial_step h (by omega) h2 h3 h4 h5 h6
      have hs2 := trial_skip hs (by omega) (by omega)
      exact ih (i + 2) n' l' hs2 (by omega) (by omega) (by omega) (by omega)
    · rw [if_neg hii]
      exact ⟨i, n, l, rfl, h, by omega⟩

/-- **C43** For every `n` at least 1 and every ceiling, `get_max_prime_factor_less_than` ends and returns the largest prime
factor of `n` that is at most `ceil`, or `None` when there is none. -/
theorem C43_max_prime_factor (n : ℕ) (hn : 1 ≤ n) (ceil : ℤ) :
    ∃ r, maxPrimeFactor n ceil = some r ∧
      (∀ p, r = some p ↔ (p.Prime ∧ p ∣ n ∧ (p : ℤ) ≤ ceil ∧ ∀ q, q.Prime → q ∣ n → (q : ℤ) ≤ ceil → q ≤ p)) ∧
      (r = none ↔ ∀ q, q.Prime → q ∣ n → ceil < (q : ℤ)) := by
  suffices hh : ∃ r, maxPrimeFactor n ceil = some r ∧ IsLargest r (fun p => p.Prime ∧ p ∣ n ∧ (p : ℤ) ≤ ceil) by
    obtain ⟨r, h1, h2⟩ := hh
    refine ⟨r, h1, ?_, ?_⟩
    · intro p
      constructor
      · rintro rfl
        exact ⟨h2.1.1, h2.1.2.1, h2.1.2.2, fun q a b c => h2.2 q ⟨a, b, c⟩⟩
      · rintro ⟨a, b, c, d⟩
        rcases r with _ | q
        · exact absurd ⟨a, b, c⟩ (h2 p)
        · congr 1
          exact le_antisymm (d q h2.1.1 h2.1.2.1 h2.1.2.2) (h2.2 p ⟨a, b, c⟩)
    · constructor
      · rintro rfl q a b
        by_contra hcon
        exact h2 q ⟨a, b, by omega⟩
      · intro h
        rcases r with _ | q
        · rfl
        · have := h q h2.1.1 h2.1.2.1
          have := h2.1.2.2
          omega
  unfold maxPrimeFactor
  by_cases h1 : (n : ℤ) ≤ 1 ∨ ceil ≤ 1
  · rw [if_pos h1]
    refine ⟨none, rfl, ?_⟩
    rintro p ⟨a, b, c⟩
    have h2 := a.two_le
    rcases h1 with h1 | h1
    · have := Nat.le_of_dvd hn b
      omega
    · omega
  · rw [if_neg h1]
    push Not at h1
    have hc : 2 ≤ ceil.toNat := by omega
    simp only [Int.toNat_natCast]
    rw [divideTwo_eq ceil.toNat hc]
    obtain ⟨n1, l1, e1, h2, h3, h4, h5, h6⟩ := divideOut_spec ceil.toNat 2 (le_refl _) (n + 1) n none hn (by omega)
    rw [e1]
    simp only
    have hinit : TrialInv n ceil.toNat 2 n none := by
      refine ⟨hn, dvd_rfl, fun p _ h => Or.inl h, fun p hp _ => hp.two_le, ?_⟩
      rintro p ⟨a, _, c, _⟩
      have := a.two_le
      omega
    have hs := trial_step hinit (le_refl _) h2 h3 h4 h5 h6
    obtain ⟨i', n2, l2, e2, k1, k2⟩ := oddLoop_spec n ceil.toNat hn (n + 1) 3 n1 l1 hs (le_refl _) (by decide) (by omega) (by omega)
    rw [e2]
    simp only
    refine ⟨_, rfl, ?_⟩
    have hbig : ∀ p, p.Prime → p ∣ n2 → p = n2 := by
      intro p hp hpn
      obtain ⟨m, hm⟩ := hpn
      have hip := k1.ge p hp ⟨m, hm⟩
      by_contra hne
      have hm2 : m ≠ 1 := by
        rintro rfl
        exact hne (by omega)
      have hmp := Nat.minFac_prime hm2
      have hi2 := k1.ge m.minFac hmp ((Nat.minFac_dvd m).trans ⟨p, by rw [hm]; ring⟩)
      have hm0 : 0 < m := by
        rcases Nat.eq_zero_or_pos m with h0 | h0
        · subst h0
          have := k1.pos
          omega
        · exact h0
      have hle := Nat.minFac_le hm0
      have : i' * i' ≤ n2 := by
        rw [hm]
        exact Nat.mul_le_mul hip (by omega)
      omega
    by_cases hb : n2 > 1 ∧ n2 ≤ ceil.toNat
    · rw [if_pos hb]
      have hp2 : n2.Prime := by
        have hm := Nat.minFac_prime (n := n2) (by omega)
        have := hbig _ hm (Nat.minFac_dvd n2)
        exact this ▸ hm
      refine ⟨⟨hp2, k1.dvd, by omega⟩, ?_⟩
      rintro p ⟨a, b, c⟩
      rcases k1.split p a b with h | h
      · exact Nat.le_of_dvd (by omega) h
      · have := k1.ge n2 hp2 dvd_rfl
        omega
    · rw [if_neg hb]
      refine k1.largest.congr ?_
      intro p
      constructor
      · rintro ⟨a, b, _, d⟩
        exact ⟨a, b, by omega⟩
      · rintro ⟨a, b, c⟩
        refine ⟨a, b, ?_, by omega⟩
        rcases k1.split p a b with h | h
        · have := hbig p a h
          subst this
          exact absurd ⟨a.one_lt, by omega⟩ hb
        · exact h

/-- 60 = 2 * 2 * 3 * 5 -/
example : maxPrimeFactor 60 60 = some (some 5) ∧ maxPrimeFactor 60 4 = some (some 3) ∧ maxPrimeFactor 60 2 = some (some 2) ∧
    maxPrimeFactor 35 4 = some none ∧ maxPrimeFactor 77 100 = some (some 11) := by decide +kernel

end GC

import Verif.Model.StrictTape
import Verif.Lemmas.Tape

/-!
# Probabilities on tapes that end
-/

set_option linter.unusedSectionVars false
set_option autoImplicit false

namespace GC

variable {α β : Type}

open Classical in
theorem prob_congr (N L : ℕ) {m : M Tape α} {m' : M Tape β} {E : Py α → Prop} {E' : Py β → Prop} (h : ∀ t, E (m t).1 ↔ E' (m' t).1) :
    prob N L m E = prob N L m' E' := by
  unfold prob
  exact avg_congr N L (fun t => if_congr (h t) rfl rfl)

open Classical in
theorem prob_eq_zero {N : ℕ} (hN : 0 < N) (L : ℕ) {m : M Tape α} {E : Py α → Prop} (h : ∀ t, ¬ E (m t).1) : prob N L m E = 0 := by
  unfold prob
  rw [avg_congr N L (fun t => if_neg (h t)), avg_const hN]

open Classical in
theorem prob_eq_one {N : ℕ} (hN : 0 < N) (L : ℕ) {m : M Tape α} {E : Py α → Prop} (h : ∀ t, E (m t).1) : prob N L m E = 1 := by
  unfold prob
  rw [avg_congr N L (fun t => if_pos (h t)), avg_const hN]

open Classical in
theorem prob_choice_zero {N : ℕ} (l : List α) (hl : l ≠ []) (f : α → M Tape β) {E : Py β → Prop} (hE : ∀ e, ¬ E (.error e)) :
    prob N 0 ((strictRand N).choice l >>= f) E = 0 := by
  cases l with
  | nil => exact absurd rfl hl
  | cons x l =>
    unfold prob
    rw [avg_zero]
    exact if_neg (hE _)

open Classical in
theorem prob_choice {N : ℕ} (hN : 0 < N) (L : ℕ) (l : List α) (hl : l ≠ []) (hd : l.length ∣ N) (f : α → M Tape β) (E : Py β → Prop) :
    prob N (L + 1) ((strictRand N).choice l >>= f) E = (l.map (fun x => prob N L (f x) E)).sum / l.length := by
  have key := avg_choice hN L l hl hd f (fun r => if E r then 1 else 0)
  unfold prob
  rw [← key, avg_succ, avg_succ]
  congr 1
  refine Finset.sum_congr rfl (fun i _ => avg_congr N L (fun t => ?_))
  cases l with
  | nil => exact absurd rfl hl
  | cons x l => rfl

theorem avg_mono {N : ℕ} (L : ℕ) {φ ψ : Tape → ℚ} (h : ∀ t, φ t ≤ ψ t) : avg N L φ ≤ avg N L ψ := by
  unfold avg
  exact div_le_div_of_nonneg_right (Finset.sum_le_sum (fun t _ => h _)) (by positivity)

open Classical in
theorem prob_nonneg {N : ℕ} (hN : 0 < N) (L : ℕ) (m : M Tape α) (E : Py α → Prop) : 0 ≤ prob N L m E := by
  rw [← avg_const hN L 0]
  exact avg_mono L (fun t => by split_ifs <;> norm_num)

open Classical in
theorem prob_le_one {N : ℕ} (hN : 0 < N) (L : ℕ) (m : M Tape α) (E : Py α → Prop) : prob N L m E ≤ 1 := by
  rw [← avg_const hN L 1]
  exact avg_mono L (fun t => by split_ifs <;> norm_num)

/-! ### Programs that look at the tape only by drawing from it -/

/-- the program draws numbers one by one and raises `outOfFuel` when there is none -/
inductive Strict : M Tape α → Prop
  | done {m : M Tape α} (r : Py α) (h : ∀ t, m t = (r, t)) : Strict m
  | draw {m : M Tape α} (f : ℕ → M Tape α) (h : ∀ i t, m (i :: t) = f i t) (h0 : m [] = (.error .outOfFuel, [])) (hf : ∀ i, Strict (f i)) : Strict m

theorem strict_pure (x : α) : Strict (pure x : M Tape α) := .done (.ok x) (fun _ => rfl)

theorem strict_lift (x : Py α) : Strict (M.lift x : M Tape α) := .done x (fun _ => rfl)

theorem strict_raise (e : PyErr) : Strict (M.raise e : M Tape α) := .done (.error e) (fun _ => rfl)

theorem Strict.bind {m : M Tape α} (h : Strict m) {f : α → M Tape β} (hf : ∀ a, Strict (f a)) : Strict (m >>= f) := by
  induction h with
  | @done m r h =>
    cases r with
    | ok a =>
      have : m >>= f = f a := by
        funext t
        show M.bind m f t = _
        unfold M.bind
        rw [h]
      rw [this]
      exact hf a
    | error e =>
      refine .done (.error e) (fun t => ?_)
      show M.bind m f t = _
      unfold M.bind
      rw [h]
  | @draw m g h h0 hg ih =>
    refine .draw (fun i => g i >>= f) (fun i t => ?_) ?_ ih
    · show M.bind m f _ = M.bind (g i) f t
      unfold M.bind
      rw [h]
    · show M.bind m f [] = _
      unfold M.bind
      rw [h0]

theorem strict_choice (N : ℕ) (l : List α) : Strict ((strictRand N).choice l) := by
  cases l with
  | nil => exact .done (.error .indexError) (fun _ => rfl)
  | cons x l =>
    exact .draw (fun i => pure ((x :: l)[i % (l.length + 1)]'(Nat.mod_lt _ (Nat.succ_pos _)))) (fun _ _ => rfl) rfl (fun i => strict_pure _)

theorem strict_random (N : ℕ) : Strict (strictRand N).random :=
  .draw (fun i => pure ((i % N : ℕ) / (N : ℚ))) (fun _ _ => rfl) rfl (fun i => strict_pure _)

/-- the program returned -/
def IsOk (r : Py α) : Prop := ∃ a, r = .ok a

open Classical in
/-- two programs one after the other: time for the first and time for the second -/
theorem prob_bind_ge {N : ℕ} (hN : 0 < N) {m : M Tape α} (hm : Strict m) {k : α → M Tape β} {E : Py β → Prop} {c : ℚ} (L1 L2 : ℕ)
    (hk : ∀ t t' a, m t = (.ok a, t') → ∀ L, L2 ≤ L → L ≤ L1 + L2 → c ≤ prob N L (k a) E) :
    prob N L1 m IsOk * c ≤ prob N (L1 + L2) (m >>= k) E := by
  induction hm generalizing L1 with
  | @done m r h =>
    cases r with
    | ok a =>
      have e : m >>= k = k a := by
        funext t
        show M.bind m k t = _
        unfold M.bind
        rw [h]
      rw [e, prob_eq_one hN L1 (fun t => ⟨a, by rw [h]⟩), one_mul]
      exact hk [] [] a (h _) _ (by omega) le_rfl
    | error e =>
      rw [prob_eq_zero hN L1 (fun t => by rw [h]; rintro ⟨a, ha⟩; cases ha), zero_mul]
      exact prob_nonneg hN _ _ _
  | @draw m f h h0 hf ih =>
    cases L1 with
    | zero =>
      have : prob N 0 m IsOk = 0 := by
        unfold prob
        rw [avg_zero, if_neg]
        rw [h0]
        rintro ⟨a, ha⟩
        cases ha
      rw [this, zero_mul]
      exact prob_nonneg hN _ _ _
    | succ L1 =>
      have e1 : prob N (L1 + 1) m IsOk = (∑ i ∈ Finset.range N, prob N L1 (f i) IsOk) / N := by
        unfold prob
        rw [avg_succ]
        simp only [h]
      have e2 : prob N (L1 + 1 + L2) (m >>= k) E = (∑ i ∈ Finset.range N, prob N (L1 + L2) (f i >>= k) E) / N := by
        unfold prob
        rw [show L1 + 1 + L2 = (L1 + L2) + 1 by omega, avg_succ]
        have : ∀ i t, (m >>= k) (i :: t) = (f i >>= k) t := by
          intro i t
          show M.bind m k _ = M.bind (f i) k t
          unfold M.bind
          rw [h]
        simp only [this]
      rw [e1, e2, div_mul_eq_mul_div, Finset.sum_mul]
      refine div_le_div_of_nonneg_right (Finset.sum_le_sum (fun i _ => ih i L1 (fun t t' a ha L h1 h2 => ?_))) (by positivity)
      exact hk (i :: t) t' a (by rw [h]; exact ha) L h1 (by omega)

end GC

import Verif.Model.Tape
import Mathlib.Tactic.FieldSimp
import Mathlib.Tactic.Ring
import Mathlib.Tactic.Positivity

/-!
# Computing averages over tapes
-/

set_option linter.unusedSectionVars false
set_option autoImplicit false

namespace GC

theorem uniRand_valid {N : ℕ} (hN : 0 < N) : (uniRand N).Valid where
  choice_mem := by
    intro α l s hl
    cases l with
    | nil => exact absurd rfl hl
    | cons x l => exact ⟨_, List.getElem_mem _, _, rfl⟩
  choice_nil := fun s => ⟨s, rfl⟩
  random_ok := by
    intro s
    refine ⟨_, _, rfl, by positivity, ?_⟩
    have h : (0 : ℚ) < N := by exact_mod_cast hN
    rw [div_lt_one h]
    exact_mod_cast Nat.mod_lt _ hN

theorem avg_zero (N : ℕ) (φ : Tape → ℚ) : avg N 0 φ = φ [] := by
  simp [avg]

theorem avg_succ (N L : ℕ) (φ : Tape → ℚ) : avg N (L + 1) φ = (∑ i ∈ Finset.range N, avg N L (fun t => φ (i :: t))) / N := by
  unfold avg
  rw [← Finset.sum_div, div_div, ← pow_succ]
  congr 1
  rw [Finset.sum_range (fun i => ∑ t : Fin L → Fin N, φ (i :: List.ofFn (fun j => (t j : ℕ))))]
  rw [← (Fin.consEquiv (fun _ => Fin N)).sum_comp, Fintype.sum_prod_type]
  refine Finset.sum_congr rfl (fun i _ => Finset.sum_congr rfl (fun t _ => ?_))
  rw [List.ofFn_succ]
  rfl

theorem avg_const {N : ℕ} (hN : 0 < N) (L : ℕ) (c : ℚ) : avg N L (fun _ => c) = c := by
  induction L with
  | zero => rw [avg_zero]
  | succ L ih =>
    rw [avg_succ]
    have : (N : ℚ) ≠ 0 := by exact_mod_cast hN.ne'
    simp only [ih, Finset.sum_const, Finset.card_range, nsmul_eq_mul]
    field_simp

theorem avg_congr (N L : ℕ) {φ ψ : Tape → ℚ} (h : ∀ t, φ t = ψ t) : avg N L φ = avg N L ψ := by
  rw [funext h]

theorem avg_add (N L : ℕ) (φ ψ : Tape → ℚ) : avg N L (fun t => φ t + ψ t) = avg N L φ + avg N L ψ := by
  unfold avg
  rw [Finset.sum_add_distrib, add_div]

theorem avg_mul (N L : ℕ) (c : ℚ) (φ : Tape → ℚ) : avg N L (fun t => c * φ t) = c * avg N L φ := by
  unfold avg
  rw [← Finset.mul_sum, mul_div_assoc]

theorem sum_range_mod (n m : ℕ) (F : ℕ → ℚ) : ∑ i ∈ Finset.range (n * m), F (i % n) = m * ∑ i ∈ Finset.range n, F i := by
  induction m with
  | zero => simp
  | succ m ih =>
    rw [Nat.mul_succ, Finset.sum_range_add, ih]
    have : ∑ i ∈ Finset.range n, F ((n * m + i) % n) = ∑ i ∈ Finset.range n, F i := by
      refine Finset.sum_congr rfl (fun i hi => ?_)
      rw [Nat.mul_add_mod, Nat.mod_eq_of_lt (Finset.mem_range.1 hi)]
    rw [this]
    push_cast
    ring

variable {α β : Type}

/-- `random.choice` picks every position of the list with the same probability -/
theorem avg_choice {N : ℕ} (hN : 0 < N) (L : ℕ) (l : List α) (hl : l ≠ []) (hd : l.length ∣ N) (f : α → M Tape β) (g : Py β → ℚ) :
    avg N (L + 1) (fun t => g (((uniRand N).choice l >>= f) t).1) = (l.map (fun x => avg N L (fun t => g (f x t).1))).sum / l.length := by
  obtain ⟨m, rfl⟩ := hd
  cases l with
  | nil => exact absurd rfl hl
  | cons x l =>
    rw [avg_succ]
    have key : ∀ i, avg ((x :: l).length * m) L (fun t => g (((uniRand ((x :: l).length * m)).choice (x :: l) >>= f) (i :: t)).1) =
        (fun j => avg ((x :: l).length * m) L (fun t => g (f (((x :: l)[j]?).getD x) t).1)) (i % (x :: l).length) := by
      intro i
      have hlt : i % (x :: l).length < (x :: l).length := Nat.mod_lt _ (Nat.succ_pos _)
      beta_reduce
      rw [List.getElem?_eq_getElem hlt]
      rfl
    simp only [key]
    rw [sum_range_mod (x :: l).length m (fun j => avg ((x :: l).length * m) L (fun t => g (f (((x :: l)[j]?).getD x) t).1))]
    have hm : m ≠ 0 := by
      rintro rfl
      simp at hN
    have hm' : (m : ℚ) ≠ 0 := by exact_mod_cast hm
    have hlen : ((x :: l).length : ℚ) ≠ 0 := by
      have : (x :: l).length ≠ 0 := by simp
      exact_mod_cast this
    have hsum : ((x :: l).map (fun y => avg ((x :: l).length * m) L (fun t => g (f y t).1))).sum =
        ∑ i ∈ Finset.range (x :: l).length, avg ((x :: l).length * m) L (fun t => g (f (((x :: l)[i]?).getD x) t).1) := by
      rw [Finset.sum_range, ← Fin.sum_univ_fun_getElem]
      refine Finset.sum_congr rfl (fun i _ => ?_)
      rw [List.getElem?_eq_getElem i.2]
      rfl
    rw [hsum, Nat.cast_mul]
    field_simp

/-- a number drawn by `random.random()` is below `p` with probability `p` -/
theorem avg_random {N : ℕ} (hN : 0 < N) (L : ℕ) (p : ℚ) (k : ℕ) (hk : p = k / N) (hp : p ≤ 1) (x y : β) (g : Py β → ℚ) :
    avg N (L + 1) (fun t => g (((uniRand N).random >>= (fun u => (if u < p then pure x else pure y : M Tape β))) t).1) =
      p * g (.ok x) + (1 - p) * g (.ok y) := by
  have hN' : (0 : ℚ) < N := by exact_mod_cast hN
  rw [avg_succ]
  have hkN : k ≤ N := by
    rw [hk, div_le_one hN'] at hp
    exact_mod_cast hp
  have key : ∀ i ∈ Finset.range N, avg N L (fun t => g (((uniRand N).random >>= (fun u => (if u < p then pure x else pure y : M Tape β))) (i :: t)).1) =
      (if i < k then g (.ok x) else g (.ok y)) := by
    intro i hi
    have hmod : i % N = i := Nat.mod_eq_of_lt (Finset.mem_range.1 hi)
    have : ∀ t : Tape, g (((uniRand N).random >>= (fun u => (if u < p then pure x else pure y : M Tape β))) (i :: t)).1 =
        (if i < k then g (.ok x) else g (.ok y)) := by
      intro t
      show g ((if ((i % N : ℕ) : ℚ) / N < p then pure x else pure y : M Tape β) t).1 = _
      have hiff : ((i % N : ℕ) : ℚ) / N < p ↔ i < k := by
        rw [hmod, hk, div_lt_div_iff_of_pos_right hN', Nat.cast_lt]
      by_cases h : i < k
      · rw [if_pos (hiff.2 h), if_pos h]
        rfl
      · rw [if_neg (fun h' => h (hiff.1 h')), if_neg h]
        rfl
    rw [avg_congr N L this, avg_const hN]
  rw [Finset.sum_congr rfl key, Finset.sum_ite, Finset.sum_const, Finset.sum_const]
  have h1 : ((Finset.range N).filter (fun i => i < k)).card = k := by
    have : (Finset.range N).filter (fun i => i < k) = Finset.range k := by
      ext i
      simp only [Finset.mem_filter, Finset.mem_range]
      omega
    rw [this, Finset.card_range]
  have h2 : ((Finset.range N).filter (fun i => ¬ i < k)).card = N - k := by
    have := Finset.card_filter_add_card_filter_not (s := Finset.range N) (fun i => i < k)
    rw [h1, Finset.card_range] at this
    omega
  rw [h1, h2, hk, nsmul_eq_mul, nsmul_eq_mul, Nat.cast_sub hkN]
  field_simp

/-! ### Programs that draw a bounded number of numbers -/

/-- `Draws k m`: the program looks at the tape only by taking at most `k` numbers from it -/
inductive Draws : ℕ → M Tape α → Prop
  | done {k : ℕ} {m : M Tape α} (r : Py α) (h : ∀ t, m t = (r, t)) : Draws k m
  | draw {k : ℕ} {m : M Tape α} (f : ℕ → M Tape α) (h : ∀ t, m t = f (t.headD 0) t.tail) (hf : ∀ i, Draws k (f i)) : Draws (k + 1) m

theorem Draws.mono {k k' : ℕ} {m : M Tape α} (h : Draws k m) (hk : k ≤ k') : Draws k' m := by
  induction h generalizing k' with
  | done r h => exact .done r h
  | draw f h hf ih =>
    obtain ⟨j, rfl⟩ : ∃ j, k' = j + 1 := ⟨k' - 1, by omega⟩
    exact .draw f h (fun i => ih i (by omega))

theorem Draws.bind {k j : ℕ} {m : M Tape α} (h : Draws k m) {f : α → M Tape β} (hf : ∀ a, Draws j (f a)) : Draws (k + j) (m >>= f) := by
  induction h with
  | @done k m r h =>
    cases r with
    | ok a =>
      have : m >>= f = f a := by
        funext t
        show M.bind m f t = _
        unfold M.bind
        rw [h]
      rw [this]
      exact (hf a).mono (by omega)
    | error e =>
      refine .done (.error e) (fun t => ?_)
      show M.bind m f t = _
      unfold M.bind
      rw [h]
  | @draw k m g h hg ih =>
    have : k + 1 + j = (k + j) + 1 := by omega
    rw [this]
    refine .draw (fun i => g i >>= f) (fun t => ?_) ih
    show M.bind m f t = M.bind (g _) f _
    unfold M.bind
    rw [h]

theorem draws_lift (k : ℕ) (x : Py α) : Draws k (M.lift x : M Tape α) := .done x (fun _ => rfl)

theorem draws_pure (k : ℕ) (x : α) : Draws k (pure x : M Tape α) := .done (.ok x) (fun _ => rfl)

theorem draws_choice (N : ℕ) (l : List α) : Draws 1 ((uniRand N).choice l) := by
  cases l with
  | nil => exact .done (.error .indexError) (fun _ => rfl)
  | cons x l =>
    exact .draw (fun i => pure ((x :: l)[i % (l.length + 1)]'(Nat.mod_lt _ (Nat.succ_pos _)))) (fun _ => rfl) (fun i => draws_pure _ _)

theorem draws_random (N : ℕ) : Draws 1 (uniRand N).random :=
  .draw (fun i => pure ((i % N : ℕ) / (N : ℚ))) (fun _ => rfl) (fun i => draws_pure _ _)

/-- If every way in which `m` can end leads to the same average, that is the average. -/
theorem avg_bind_const {N : ℕ} (hN : 0 < N) {k : ℕ} {m : M Tape α} (h : Draws k m) {f : α → M Tape β} {g : Py β → ℚ} {c : ℚ} (j L : ℕ) (hL : k + j ≤ L)
    (hok : ∀ t t' a, m t = (.ok a, t') → ∀ L', j ≤ L' → avg N L' (fun t => g (f a t).1) = c)
    (herr : ∀ t t' e, m t = (.error e, t') → g (.error e) = c) :
    avg N L (fun t => g ((m >>= f) t).1) = c := by
  induction h generalizing L with
  | @done k m r h =>
    cases r with
    | ok a =>
      have : m >>= f = f a := by
        funext t
        show M.bind m f t = _
        unfold M.bind
        rw [h]
      rw [this]
      exact hok [] [] a (h _) L (by omega)
    | error e =>
      have : ∀ t, g ((m >>= f) t).1 = c := by
        intro t
        show g (M.bind m f t).1 = _
        unfold M.bind
        rw [h]
        exact herr [] [] e (h _)
      rw [avg_congr N L this, avg_const hN]
  | @draw k m q h hq ih =>
    obtain ⟨L, rfl⟩ : ∃ L', L = L' + 1 := ⟨L - 1, by omega⟩
    rw [avg_succ]
    have : ∀ i, avg N L (fun t => g ((m >>= f) (i :: t)).1) = c := by
      intro i
      have e : ∀ t : Tape, g ((m >>= f) (i :: t)).1 = g ((q i >>= f) t).1 := by
        intro t
        show g (M.bind m f (i :: t)).1 = g (M.bind (q i) f t).1
        unfold M.bind
        rw [h]
        rfl
      rw [avg_congr N L e]
      refine ih i L (by omega) (fun t t' a ha => hok (i :: t) t' a ?_) (fun t t' e he => herr (i :: t) t' e ?_)
      · rw [h]; exact ha
      · rw [h]; exact he
    simp only [this, Finset.sum_const, Finset.card_range, nsmul_eq_mul]
    have hN' : (N : ℚ) ≠ 0 := by exact_mod_cast hN.ne'
    field_simp

end GC

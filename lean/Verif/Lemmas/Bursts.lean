import Verif.Lemmas.RetryRun
import Verif.Model.Optimizer
import Mathlib.Data.List.Chain

/-!
# Bursts of a Markov chain that restart at the best state

First, about Markov chains on finitely many states: a set of states that cannot be left is reached almost surely if and only if it can be reached from everywhere the chain can get to.
Then the chain of the best states of `short_bursts` (optimization/optimization.py:376-425), and its law.
-/

set_option linter.unusedSectionVars false
set_option autoImplicit false

namespace GC

variable {α : Type}

/-! ### Sets of states that cannot be left -/

section absorbing
variable {S : Finset α} {K : α → α → ℚ} {T : α → Prop} [DecidablePred T]

/-- a possible step -/
def PosStep (S : Finset α) (K : α → α → ℚ) (u v : α) : Prop := u ∈ S ∧ v ∈ S ∧ 0 < K u v

/-- `1` on the set, `0` elsewhere -/
def isIn (T : α → Prop) [DecidablePred T] (x : α) : ℚ := if T x then 1 else 0

theorem isIn_nonneg (x : α) : 0 ≤ isIn T x := by unfold isIn; split_ifs <;> norm_num

theorem isIn_le_one (x : α) : isIn T x ≤ 1 := by unfold isIn; split_ifs <;> norm_num

theorem after_mono (hK : IsKernel S K) {f g : α → ℚ} (h : ∀ x ∈ S, f x ≤ g x) (n : ℕ) : ∀ x ∈ S, after S K n f x ≤ after S K n g x := by
  induction n with
  | zero => exact h
  | succ n ih =>
    intro x hx
    exact Finset.sum_le_sum (fun y hy => mul_le_mul_of_nonneg_left (ih y hy) (hK.nonneg x hx y hy))

theorem after_le_one (hK : IsKernel S K) (n : ℕ) : ∀ x ∈ S, after S K n (isIn T) x ≤ 1 := by
  intro x hx
  rw [← after_const hK 1 n x hx]
  exact after_mono hK (fun y _ => isIn_le_one y) n x hx

/-- inside a set that cannot be left the chain stays -/
theorem after_inside (hK : IsKernel S K) (hT : ∀ x ∈ S, T x → ∀ y ∈ S, 0 < K x y → T y) (n : ℕ) : ∀ x ∈ S, T x → after S K n (isIn T) x = 1 := by
  induction n with
  | zero => intro x _ h; exact if_pos h
  | succ n ih =>
    intro x hx h
    show ∑ y ∈ S, K x y * after S K n (isIn T) y = 1
    rw [← hK.sum x hx]
    refine Finset.sum_congr rfl (fun y hy => ?_)
    rcases (hK.nonneg x hx y hy).eq_or_lt with h0 | h0
    · rw [← h0, zero_mul]
    · rw [ih y hy (hT x hx h y hy h0), mul_one]

theorem after_step (hK : IsKernel S K) (hT : ∀ x ∈ S, T x → ∀ y ∈ S, 0 < K x y → T y) (n : ℕ) : ∀ x ∈ S, after S K n (isIn T) x ≤ after S K (n + 1) (isIn T) x := by
  intro x hx
  rw [after_add n 1]
  refine after_mono hK (fun y hy => ?_) n x hx
  by_cases h : T y
  · rw [after_inside hK hT 1 y hy h]
    exact isIn_le_one y
  · have : isIn T y = 0 := if_neg h
    rw [this]
    exact after_nonneg hK (fun z _ => isIn_nonneg z) 1 y hy

/-- the probability of having reached the set grows -/
theorem after_grows (hK : IsKernel S K) (hT : ∀ x ∈ S, T x → ∀ y ∈ S, 0 < K x y → T y) {m n : ℕ} (h : m ≤ n) : ∀ x ∈ S, after S K m (isIn T) x ≤ after S K n (isIn T) x := by
  intro x hx
  induction n, h using Nat.le_induction with
  | base => exact le_rfl
  | succ n _ ih => exact ih.trans (after_step hK hT n x hx)

theorem after_pos (hK : IsKernel S K) {x y : α} (hx : x ∈ S) (hT : T y) (h : Relation.ReflTransGen (PosStep S K) x y) : ∃ n, 0 < after S K n (isIn T) x := by
  induction h using Relation.ReflTransGen.head_induction_on with
  | refl => exact ⟨0, by show 0 < isIn T y; rw [isIn, if_pos hT]; exact one_pos⟩
  | @head u v h1 _ ih =>
    obtain ⟨n, hn⟩ := ih h1.2.1
    refine ⟨n + 1, ?_⟩
    show 0 < ∑ y ∈ S, K u y * after S K n (isIn T) y
    exact Finset.sum_pos' (fun y hy => mul_nonneg (hK.nonneg u h1.1 y hy) (after_nonneg hK (fun z _ => isIn_nonneg z) n y hy)) ⟨v, h1.2.1, mul_pos h1.2.2 hn⟩

theorem reached_mem {x y : α} (hx : x ∈ S) (h : Relation.ReflTransGen (PosStep S K) x y) : y ∈ S := by
  cases h with
  | refl => exact hx
  | tail _ h => exact h.2.1

/-- the probability of not having reached the set decreases exponentially -/
theorem after_absorbed (hK : IsKernel S K) (hT : ∀ x ∈ S, T x → ∀ y ∈ S, 0 < K x y → T y) {x0 : α} (hx0 : x0 ∈ S)
    (hreach : ∀ x, Relation.ReflTransGen (PosStep S K) x0 x → ∃ y, T y ∧ Relation.ReflTransGen (PosStep S K) x y) :
    ∃ m : ℕ, ∃ ε : ℚ, 0 < ε ∧ ε ≤ 1 ∧ ∀ j : ℕ, 1 - (1 - ε) ^ j ≤ after S K (j * m) (isIn T) x0 := by
  classical
  let S' := S.filter (fun x => Relation.ReflTransGen (PosStep S K) x0 x)
  have hS' : ∀ x, x ∈ S' ↔ x ∈ S ∧ Relation.ReflTransGen (PosStep S K) x0 x := fun x => Finset.mem_filter
  have h0 : x0 ∈ S' := (hS' _).2 ⟨hx0, .refl⟩
  have hpos : ∀ x ∈ S', ∃ n, 0 < after S K n (isIn T) x := by
    intro x hx
    obtain ⟨y, hy, hr⟩ := hreach x ((hS' x).1 hx).2
    exact after_pos hK ((hS' x).1 hx).1 hy hr
  choose! k hk using hpos
  let m := S'.sup k
  have hm : ∀ x ∈ S', 0 < after S K m (isIn T) x := fun x hx =>
    (hk x hx).trans_le (after_grows hK hT (Finset.le_sup (f := k) hx) x ((hS' x).1 hx).1)
  obtain ⟨z, hz, hmin⟩ := S'.exists_min_image (fun x => after S K m (isIn T) x) ⟨x0, h0⟩
  refine ⟨m, after S K m (isIn T) z, hm z hz, after_le_one hK m z ((hS' z).1 hz).1, ?_⟩
  set ε := after S K m (isIn T) z with hε
  have hε0 : 0 < ε := hm z hz
  have hε1 : ε ≤ 1 := after_le_one hK m z ((hS' z).1 hz).1
  -- after any number of steps only states in S' matter
  have hclosed : ∀ (n : ℕ) (f g : α → ℚ), (∀ x ∈ S', f x ≤ g x) → ∀ x ∈ S', after S K n f x ≤ after S K n g x := by
    intro n f g hfg
    induction n with
    | zero => exact hfg
    | succ n ih =>
      intro x hx
      refine Finset.sum_le_sum (fun y hy => ?_)
      obtain ⟨hxS, hxr⟩ := (hS' x).1 hx
      rcases (hK.nonneg x hxS y hy).eq_or_lt with h | h
      · rw [← h, zero_mul, zero_mul]
      · exact mul_le_mul_of_nonneg_left (ih y ((hS' y).2 ⟨hy, hxr.tail ⟨hxS, hy, h⟩⟩)) h.le
  have key : ∀ j : ℕ, ∀ x ∈ S', 1 - (1 - ε) ^ j ≤ after S K (j * m) (isIn T) x := by
    intro j
    induction j with
    | zero =>
      intro x _
      rw [pow_zero, sub_self, Nat.zero_mul]
      exact isIn_nonneg x
    | succ j ih =>
      intro x hx
      rw [Nat.succ_mul, add_comm (j * m) m, after_add]
      have h1 : ∀ y ∈ S', (1 - (1 - ε) ^ j) * 1 + (1 - ε) ^ j * isIn T y ≤ after S K (j * m) (isIn T) y := by
        intro y hy
        by_cases h : T y
        · rw [after_inside hK hT _ y ((hS' y).1 hy).1 h, isIn, if_pos h]
          linarith
        · rw [isIn, if_neg h, mul_one, mul_zero, add_zero]
          exact ih y hy
      have h2 := hclosed m _ _ h1 x hx
      rw [after_lin (1 - (1 - ε) ^ j) ((1 - ε) ^ j) (fun _ => 1) (isIn T) m x, after_const hK 1 m x ((hS' x).1 hx).1] at h2
      have h3 : ε ≤ after S K m (isIn T) x := hmin x hx
      have h4 : (0 : ℚ) ≤ (1 - ε) ^ j := pow_nonneg (by linarith) j
      have h5 := mul_le_mul_of_nonneg_left h3 h4
      rw [pow_succ]
      linarith
  exact fun j => key j x0 h0

/-- the set is reached almost surely if and only if it can be reached from every state that can be reached -/
theorem absorbed_iff (hK : IsKernel S K) (hT : ∀ x ∈ S, T x → ∀ y ∈ S, 0 < K x y → T y) {x0 : α} (hx0 : x0 ∈ S) :
    (∀ x, Relation.ReflTransGen (PosStep S K) x0 x → ∃ y, T y ∧ Relation.ReflTransGen (PosStep S K) x y) ↔
      ∀ δ : ℚ, 0 < δ → ∃ n0 : ℕ, ∀ n, n0 ≤ n → 1 - δ ≤ after S K n (isIn T) x0 := by
  constructor
  · intro h δ hδ
    obtain ⟨m, ε, h1, h2, h3⟩ := after_absorbed hK hT hx0 h
    obtain ⟨j, hj⟩ := exists_pow_lt_of_lt_one hδ (show 1 - ε < 1 by linarith)
    refine ⟨j * m, fun n hn => ?_⟩
    have := (h3 j).trans (after_grows hK hT hn x0 hx0)
    linarith
  · intro h x hx
    classical
    by_contra hno
    push Not at hno
    -- from x the set is never reached
    have hzero : ∀ n y, Relation.ReflTransGen (PosStep S K) x y → y ∈ S → after S K n (isIn T) y = 0 := by
      intro n
      induction n with
      | zero =>
        intro y hy _
        exact if_neg (fun hT' => hno y hT' hy)
      | succ n ih =>
        intro y hy hyS
        refine Finset.sum_eq_zero (fun z hz => ?_)
        rcases (hK.nonneg y hyS z hz).eq_or_lt with h0 | h0
        · rw [← h0, zero_mul]
        · rw [ih z (hy.tail ⟨hyS, hz, h0⟩) hz, mul_zero]
    -- x is reached with positive probability
    have hxS := reached_mem hx0 hx
    have : ∀ y, y ∈ S → Relation.ReflTransGen (PosStep S K) y x → ∃ k, ∃ p : ℚ, 0 < p ∧ ∀ n, after S K (k + n) (isIn T) y ≤ 1 - p := by
      intro y hyS hy
      induction hy using Relation.ReflTransGen.head_induction_on with
      | refl => exact ⟨0, 1, one_pos, fun n => by rw [hzero _ x .refl hxS]; norm_num⟩
      | @head u v h1 _ ih =>
        obtain ⟨k, p, hp, hk⟩ := ih h1.2.1
        refine ⟨k + 1, K u v * p, mul_pos h1.2.2 hp, fun n => ?_⟩
        rw [show k + 1 + n = (k + n) + 1 by ring]
        show ∑ z ∈ S, K u z * after S K (k + n) (isIn T) z ≤ _
        have : ∀ z ∈ S, K u z * after S K (k + n) (isIn T) z ≤ K u z - (if z = v then K u v * p else 0) := by
          intro z hz
          have h0 := hK.nonneg u h1.1 z hz
          by_cases hzv : z = v
          · subst hzv
            rw [if_pos rfl]
            have := mul_le_mul_of_nonneg_left (hk n) h0
            linarith
          · rw [if_neg hzv, sub_zero]
            have := mul_le_mul_of_nonneg_left (after_le_one (T := T) hK (k + n) z hz) h0
            linarith
        refine (Finset.sum_le_sum this).trans ?_
        rw [Finset.sum_sub_distrib, hK.sum u h1.1, Finset.sum_ite_eq' S v, if_pos h1.2.1]
    obtain ⟨k, p, hp, hk⟩ := this x0 hx0 hx
    obtain ⟨n0, hn0⟩ := h (p / 2) (by linarith)
    have h1 := hn0 (k + n0) (by omega)
    have h2 := hk n0
    linarith

end absorbing

/-! ### Mean values along paths -/

section paths
variable {S : Finset α} {K : α → α → ℚ}

theorem pathMean_congr_mem {f g : List α → ℚ} (n : ℕ) (h : ∀ l, l.length = n → (∀ y ∈ l, y ∈ S) → f l = g l) (x : α) : pathMean S K n f x = pathMean S K n g x := by
  induction n generalizing f g x with
  | zero => exact h [] rfl (by simp)
  | succ n ih =>
    refine Finset.sum_congr rfl (fun y hy => ?_)
    rw [ih (fun l hl hS => h (y :: l) (by simp [hl]) (fun z hz => ?_))]
    rcases List.mem_cons.1 hz with rfl | hz
    · exact hy
    · exact hS z hz

theorem pathMean_finset_sum {ι : Type} (s : Finset ι) (f : ι → List α → ℚ) (n : ℕ) (x : α) : pathMean S K n (fun l => ∑ i ∈ s, f i l) x = ∑ i ∈ s, pathMean S K n (f i) x := by
  induction n generalizing f x with
  | zero => rfl
  | succ n ih =>
    show ∑ y ∈ S, K x y * pathMean S K n (fun l => ∑ i ∈ s, f i (y :: l)) y = ∑ i ∈ s, ∑ y ∈ S, K x y * pathMean S K n (fun l => f i (y :: l)) y
    rw [Finset.sum_comm]
    refine Finset.sum_congr rfl (fun y _ => ?_)
    rw [ih, Finset.mul_sum]

theorem pathMean_smul (c : ℚ) (f : List α → ℚ) (n : ℕ) (x : α) : pathMean S K n (fun l => f l * c) x = pathMean S K n f x * c := by
  have := pathMean_lin (S := S) (K := K) c 0 f (fun _ => 0) n x
  simp only [zero_mul, add_zero] at this
  rw [mul_comm, ← this]
  exact pathMean_congr n (fun l _ => mul_comm _ _) x

theorem pathMean_nonneg (hK : ∀ x ∈ S, ∀ y ∈ S, 0 ≤ K x y) {f : List α → ℚ} (n : ℕ) (h : ∀ l, l.length = n → (∀ y ∈ l, y ∈ S) → 0 ≤ f l) :
    ∀ x ∈ S, 0 ≤ pathMean S K n f x := by
  induction n generalizing f with
  | zero => intro x _; exact h [] rfl (by simp)
  | succ n ih =>
    intro x hx
    refine Finset.sum_nonneg (fun y hy => mul_nonneg (hK x hx y hy) (ih (fun l hl hS => h (y :: l) (by simp [hl]) (fun z hz => ?_)) y hy))
    rcases List.mem_cons.1 hz with rfl | hz
    · exact hy
    · exact hS z hz

/-- a mean value of a nonnegative function is positive if and only if the function is positive on a possible path -/
theorem pathMean_pos (hK : ∀ x ∈ S, ∀ y ∈ S, 0 ≤ K x y) {f : List α → ℚ} (n : ℕ) (h : ∀ l, 0 ≤ f l) : ∀ x ∈ S,
    (0 < pathMean S K n f x ↔ ∃ l, List.IsChain (PosStep S K) (x :: l) ∧ l.length = n ∧ 0 < f l) := by
  induction n generalizing f with
  | zero =>
    intro x _
    constructor
    · exact fun h => ⟨[], .singleton x, rfl, h⟩
    · rintro ⟨l, -, hl, h⟩
      rw [List.length_eq_zero_iff.1 hl] at h
      exact h
  | succ n ih =>
    intro x hx
    have hterm : ∀ y ∈ S, 0 ≤ K x y * pathMean S K n (fun l => f (y :: l)) y := fun y hy =>
      mul_nonneg (hK x hx y hy) (pathMean_nonneg hK n (fun l _ _ => h _) y hy)
    show 0 < ∑ y ∈ S, K x y * pathMean S K n (fun l => f (y :: l)) y ↔ _
    constructor
    · intro hpos
      obtain ⟨y, hy, hne⟩ := Finset.exists_ne_zero_of_sum_ne_zero hpos.ne'
      have hy0 := lt_of_le_of_ne (hterm y hy) (Ne.symm hne)
      have h1 : 0 < K x y := (hK x hx y hy).lt_of_ne (fun e => by rw [← e, zero_mul] at hy0; exact lt_irrefl _ hy0)
      have h2 : 0 < pathMean S K n (fun l => f (y :: l)) y := (mul_pos_iff_of_pos_left h1).1 hy0
      obtain ⟨l, hl1, hl2, hl3⟩ := (ih (fun l => h (y :: l)) y hy).1 h2
      exact ⟨y :: l, .cons_cons ⟨hx, hy, h1⟩ hl1, by simp [hl2], hl3⟩
    · rintro ⟨l, hl1, hl2, hl3⟩
      rcases l with _ | ⟨y, l⟩
      · simp at hl2
      · obtain ⟨h1, h2⟩ := List.isChain_cons_cons.1 hl1
        exact Finset.sum_pos' hterm ⟨y, h1.2.1, mul_pos h1.2.2 ((ih (fun l => h (y :: l)) y h1.2.1).2 ⟨l, h2, by simpa using hl2, hl3⟩)⟩

end paths

/-! ### The chain of the best states -/

section best
variable {A : Type} [LinearOrder A] {S : Finset α} {K : α → α → ℚ} {σ : α → A} {mx : Bool}

/-- the last of the best among a state and a list of states -/
def lastBest (σ : α → A) (mx : Bool) : α → List α → α
  | b, [] => b
  | b, y :: l => lastBest σ mx (if isImprovement mx (σ y) (σ b) then y else b) l

theorem improve_refl (mx : Bool) (a : A) : isImprovement mx a a = true := by
  cases mx <;> simp [isImprovement]

theorem improve_trans {mx : Bool} {a b c : A} (h1 : isImprovement mx a b = true) (h2 : isImprovement mx b c = true) : isImprovement mx a c = true := by
  cases mx <;> simp only [isImprovement, if_true, Bool.false_eq_true, if_false, decide_eq_true_eq] at *
  · exact h1.trans h2
  · exact h2.trans h1

theorem improve_total {mx : Bool} {a b : A} (h : ¬ isImprovement mx a b = true) : isImprovement mx b a = true := by
  cases mx <;> simp only [isImprovement, if_true, Bool.false_eq_true, if_false, decide_eq_true_eq] at * <;> exact (not_le.1 h).le

/-- the last of the best is one of them, and none is better -/
theorem lastBest_spec (b : α) (l : List α) : lastBest σ mx b l ∈ b :: l ∧ ∀ y ∈ b :: l, isImprovement mx (σ (lastBest σ mx b l)) (σ y) = true := by
  induction l generalizing b with
  | nil => simp [lastBest, improve_refl]
  | cons z l ih =>
    unfold lastBest
    obtain ⟨h1, h2⟩ := ih (if isImprovement mx (σ z) (σ b) then z else b)
    by_cases hz : isImprovement mx (σ z) (σ b) = true
    · rw [if_pos hz] at h1 h2 ⊢
      refine ⟨List.mem_cons_of_mem b h1, fun y hy => ?_⟩
      rcases List.mem_cons.1 hy with rfl | hy
      · exact improve_trans (h2 z List.mem_cons_self) hz
      · exact h2 y hy
    · rw [if_neg hz] at h1 h2 ⊢
      refine ⟨?_, fun y hy => ?_⟩
      · rcases List.mem_cons.1 h1 with h | h
        · rw [h]; exact List.mem_cons_self
        · exact List.mem_cons_of_mem _ (List.mem_cons_of_mem _ h)
      · rcases List.mem_cons.1 hy with rfl | hy
        · exact h2 _ List.mem_cons_self
        · rcases List.mem_cons.1 hy with rfl | hy
          · exact improve_trans (h2 b List.mem_cons_self) (improve_total hz)
          · exact h2 y (List.mem_cons_of_mem _ hy)

theorem lastBest_mem {b : α} {l : List α} (hb : b ∈ S) (hl : ∀ y ∈ l, y ∈ S) : lastBest σ mx b l ∈ S := by
  rcases List.mem_cons.1 (lastBest_spec (σ := σ) (mx := mx) b l).1 with h | h
  · rw [h]; exact hb
  · exact hl _ h

/-- a state than which none is better -/
def IsOptimal (S : Finset α) (σ : α → A) (mx : Bool) (x : α) : Prop := ∀ z ∈ S, isImprovement mx (σ x) (σ z) = true

instance (S : Finset α) (σ : α → A) (mx : Bool) : DecidablePred (IsOptimal S σ mx) := fun x => by unfold IsOptimal; infer_instance

/-- a burst of `n` steps (after the state it starts from) along the relation `R` can lead from the best state `x` to the best state `y` -/
def BurstTo (R : α → α → Prop) (n : ℕ) (σ : α → A) (mx : Bool) (x y : α) : Prop := ∃ l, List.IsChain R (x :: l) ∧ l.length = n ∧ lastBest σ mx x l = y

/-- the mean of a function of the best state after `num` bursts of `n` steps -/
def burstsMean (S : Finset α) (K : α → α → ℚ) (n : ℕ) (σ : α → A) (mx : Bool) : ℕ → (α → ℚ) → α → ℚ
  | 0, ψ, x => ψ x
  | k + 1, ψ, x => pathMean S K n (fun l => burstsMean S K n σ mx k ψ (lastBest σ mx x l)) x

/-- the transition probabilities of the best state -/
def burstKernel [DecidableEq α] (S : Finset α) (K : α → α → ℚ) (n : ℕ) (σ : α → A) (mx : Bool) (x y : α) : ℚ :=
  pathMean S K n (fun l => if lastBest σ mx x l = y then 1 else 0) x

variable [DecidableEq α]

theorem burst_sum {n : ℕ} (ψ : α → ℚ) {x : α} (hx : x ∈ S) : pathMean S K n (fun l => ψ (lastBest σ mx x l)) x = ∑ y ∈ S, burstKernel S K n σ mx x y * ψ y := by
  unfold burstKernel
  simp only [← pathMean_smul]
  rw [← pathMean_finset_sum]
  refine pathMean_congr_mem n (fun l _ hl => ?_) x
  simp only [ite_mul, one_mul, zero_mul]
  rw [Finset.sum_ite_eq S (lastBest σ mx x l), if_pos (lastBest_mem hx hl)]

theorem burstKernel_isKernel (hK : IsKernel S K) (n : ℕ) : IsKernel S (burstKernel S K n σ mx) where
  nonneg := fun x hx y _ => pathMean_nonneg hK.nonneg n (fun l _ _ => by split_ifs <;> norm_num) x hx
  sum := fun x hx => by
    have := burst_sum (K := K) (σ := σ) (mx := mx) (n := n) (fun _ => 1) hx
    rw [pathMean_const hK 1 n x hx] at this
    simp only [mul_one] at this
    exact this.symm

theorem burstsMean_eq (n k : ℕ) (ψ : α → ℚ) : ∀ x ∈ S, burstsMean S K n σ mx k ψ x = after S (burstKernel S K n σ mx) k ψ x := by
  induction k with
  | zero => intro x _; rfl
  | succ k ih =>
    intro x hx
    show pathMean S K n (fun l => burstsMean S K n σ mx k ψ (lastBest σ mx x l)) x = ∑ y ∈ S, burstKernel S K n σ mx x y * after S (burstKernel S K n σ mx) k ψ y
    rw [burst_sum _ hx]
    exact Finset.sum_congr rfl (fun y hy => by rw [ih y hy])

theorem burstKernel_pos (hK : IsKernel S K) {n : ℕ} {x y : α} (hx : x ∈ S) : 0 < burstKernel S K n σ mx x y ↔ BurstTo (PosStep S K) n σ mx x y := by
  unfold burstKernel BurstTo
  rw [pathMean_pos hK.nonneg n (fun l => by split_ifs <;> norm_num) x hx]
  refine exists_congr (fun l => and_congr_right (fun _ => and_congr_right (fun _ => ?_)))
  by_cases h : lastBest σ mx x l = y
  · rw [if_pos h]; simp [h]
  · rw [if_neg h]; simp [h]

theorem chain_mem {x : α} {l : List α} (h : List.IsChain (PosStep S K) (x :: l)) : ∀ y ∈ l, y ∈ S := by
  induction l generalizing x with
  | nil => simp
  | cons z l ih =>
    obtain ⟨h1, h2⟩ := List.isChain_cons_cons.1 h
    intro y hy
    rcases List.mem_cons.1 hy with rfl | hy
    · exact h1.2.1
    · exact ih h2 y hy

theorem burstStep_iff (hK : IsKernel S K) {n : ℕ} {x y : α} (hx : x ∈ S) : PosStep S (burstKernel S K n σ mx) x y ↔ BurstTo (PosStep S K) n σ mx x y := by
  unfold PosStep
  constructor
  · exact fun h => (burstKernel_pos hK hx).1 h.2.2
  · intro h
    refine ⟨hx, ?_, (burstKernel_pos hK hx).2 h⟩
    obtain ⟨l, h1, -, rfl⟩ := h
    exact lastBest_mem hx (chain_mem h1)

theorem optimal_closed {n : ℕ} {x y : α} (hx : IsOptimal S σ mx x) {R : α → α → Prop} (h : BurstTo R n σ mx x y) : IsOptimal S σ mx y := by
  obtain ⟨l, -, -, rfl⟩ := h
  exact fun z hz => improve_trans ((lastBest_spec x l).2 x List.mem_cons_self) (hx z hz)

theorem burstReach_iff (hK : IsKernel S K) {n : ℕ} {x y : α} (hx : x ∈ S) :
    Relation.ReflTransGen (PosStep S (burstKernel S K n σ mx)) x y ↔ Relation.ReflTransGen (BurstTo (PosStep S K) n σ mx) x y := by
  constructor
  · intro h
    exact Relation.ReflTransGen.lift id (fun u v huv => (burstStep_iff hK huv.1).1 huv) _ _ h
  · intro h
    induction h with
    | refl => exact .refl
    | tail h1 h2 ih => exact ih.tail ((burstStep_iff hK (reached_mem hx ih)).2 h2)

/-- bursts find an optimum almost surely if and only if they can find one from every best state they can get to -/
theorem bursts_find_iff (hK : IsKernel S K) (n : ℕ) {x0 : α} (hx0 : x0 ∈ S) :
    (∀ x, Relation.ReflTransGen (BurstTo (PosStep S K) n σ mx) x0 x → ∃ y, IsOptimal S σ mx y ∧ Relation.ReflTransGen (BurstTo (PosStep S K) n σ mx) x y) ↔
      ∀ δ : ℚ, 0 < δ → ∃ k0 : ℕ, ∀ k, k0 ≤ k → 1 - δ ≤ burstsMean S K n σ mx k (isIn (IsOptimal S σ mx)) x0 := by
  have := absorbed_iff (T := IsOptimal S σ mx) (burstKernel_isKernel (σ := σ) (mx := mx) hK n)
    (fun x hx hT y _ h => optimal_closed hT ((burstKernel_pos hK hx).1 h)) hx0
  rw [show (∀ x, Relation.ReflTransGen (BurstTo (PosStep S K) n σ mx) x0 x → ∃ y, IsOptimal S σ mx y ∧ Relation.ReflTransGen (BurstTo (PosStep S K) n σ mx) x y) ↔
      ∀ x, Relation.ReflTransGen (PosStep S (burstKernel S K n σ mx)) x0 x → ∃ y, IsOptimal S σ mx y ∧ Relation.ReflTransGen (PosStep S (burstKernel S K n σ mx)) x y by
    refine forall_congr' (fun x => ?_)
    rw [burstReach_iff hK hx0]
    refine imp_congr_right (fun h => exists_congr (fun y => and_congr_right (fun _ => ?_)))
    rw [burstReach_iff hK (reached_mem hx0 ((burstReach_iff hK hx0).2 h))], this]
  refine forall_congr' (fun δ => imp_congr_right (fun _ => exists_congr (fun k0 => forall_congr' (fun k => imp_congr_right (fun _ => ?_)))))
  rw [burstsMean_eq n k _ x0 hx0]

/-- with fewer rounds the mean is smaller, but not much -/
theorem burstsMean_dominated {K' : α → α → ℚ} {c : ℚ} (hc : 0 ≤ c) (h0 : ∀ x ∈ S, ∀ y ∈ S, 0 ≤ K' x y) (hle : ∀ x ∈ S, ∀ y ∈ S, K' x y ≤ K x y)
    (hge : ∀ x ∈ S, ∀ y ∈ S, c * K x y ≤ K' x y) (n : ℕ) {ψ : α → ℚ} (hψ : ∀ x ∈ S, 0 ≤ ψ x) (k : ℕ) : ∀ x ∈ S,
    0 ≤ burstsMean S K' n σ mx k ψ x ∧ burstsMean S K' n σ mx k ψ x ≤ burstsMean S K n σ mx k ψ x ∧ (c ^ n) ^ k * burstsMean S K n σ mx k ψ x ≤ burstsMean S K' n σ mx k ψ x := by
  have hK0 : ∀ x ∈ S, ∀ y ∈ S, 0 ≤ K x y := fun x hx y hy => (h0 x hx y hy).trans (hle x hx y hy)
  induction k with
  | zero =>
    intro x hx
    refine ⟨hψ x hx, le_rfl, ?_⟩
    rw [pow_zero, one_mul]
    exact le_rfl
  | succ k ih =>
    intro x hx
    show 0 ≤ pathMean S K' n (fun l => burstsMean S K' n σ mx k ψ (lastBest σ mx x l)) x ∧
      pathMean S K' n (fun l => burstsMean S K' n σ mx k ψ (lastBest σ mx x l)) x ≤ pathMean S K n (fun l => burstsMean S K n σ mx k ψ (lastBest σ mx x l)) x ∧
      (c ^ n) ^ (k + 1) * pathMean S K n (fun l => burstsMean S K n σ mx k ψ (lastBest σ mx x l)) x ≤
        pathMean S K' n (fun l => burstsMean S K' n σ mx k ψ (lastBest σ mx x l)) x
    -- cut off outside S
    let F' : List α → ℚ := fun l => if ∀ y ∈ l, y ∈ S then burstsMean S K' n σ mx k ψ (lastBest σ mx x l) else 0
    let F : List α → ℚ := fun l => if ∀ y ∈ l, y ∈ S then burstsMean S K n σ mx k ψ (lastBest σ mx x l) else 0
    have e1 : pathMean S K' n (fun l => burstsMean S K' n σ mx k ψ (lastBest σ mx x l)) x = pathMean S K' n F' x :=
      pathMean_congr_mem n (fun l _ hl => (if_pos hl).symm) x
    have e2 : pathMean S K n (fun l => burstsMean S K n σ mx k ψ (lastBest σ mx x l)) x = pathMean S K n F x :=
      pathMean_congr_mem n (fun l _ hl => (if_pos hl).symm) x
    rw [e1, e2]
    have hF' : ∀ l, 0 ≤ F' l := by
      intro l
      show 0 ≤ (if ∀ y ∈ l, y ∈ S then burstsMean S K' n σ mx k ψ (lastBest σ mx x l) else 0)
      split_ifs with h
      · exact (ih _ (lastBest_mem hx h)).1
      · exact le_rfl
    obtain ⟨d1, d2, d3⟩ := pathMean_dominated hc h0 hle hge n hF' x hx
    have hm : ∀ (a : ℚ) (f g : List α → ℚ), (∀ l, (∀ y ∈ l, y ∈ S) → a * f l ≤ g l) → a * pathMean S K n f x ≤ pathMean S K n g x := by
      intro a f g h
      have := pathMean_nonneg (K := K) hK0 (f := fun l => 1 * g l + (-a) * f l) n (fun l _ hl => by have := h l hl; linarith) x hx
      rw [pathMean_lin] at this
      linarith
    refine ⟨d1, d2.trans ?_, ?_⟩
    · have := hm 1 F' F (fun l hl => by
        rw [one_mul]
        show (if _ then _ else _) ≤ (if _ then _ else _)
        rw [if_pos hl, if_pos hl]
        exact (ih _ (lastBest_mem hx hl)).2.1)
      rwa [one_mul] at this
    · have := hm ((c ^ n) ^ k) F F' (fun l hl => by
        show _ * (if _ then _ else _) ≤ (if _ then _ else _)
        rw [if_pos hl, if_pos hl]
        exact (ih _ (lastBest_mem hx hl)).2.2)
      rw [pow_succ, mul_comm ((c ^ n) ^ k), mul_assoc]
      exact (mul_le_mul_of_nonneg_left this (pow_nonneg hc n)).trans d3

/-- bursts that are long enough to reach an optimum from everywhere -/
theorem burst_reaches (hK : IsKernel S K) {n : ℕ} {x : α} (hx : x ∈ S) (h : ∃ l y, List.IsChain (PosStep S K) (x :: l) ∧ l.length ≤ n ∧ y ∈ x :: l ∧ IsOptimal S σ mx y) :
    ∃ y, IsOptimal S σ mx y ∧ BurstTo (PosStep S K) n σ mx x y := by
  obtain ⟨l, y, h1, h2, h3, h4⟩ := h
  -- a possible path can be continued
  have hext : ∀ (m : ℕ) (l : List α) (x : α), x ∈ S → List.IsChain (PosStep S K) (x :: l) → ∃ l', List.IsChain (PosStep S K) (x :: (l ++ l')) ∧ l'.length = m := by
    intro m
    induction m with
    | zero => exact fun l x _ h => ⟨[], by simpa using h, rfl⟩
    | succ m ih =>
      intro l x hx h
      induction l generalizing x with
      | nil =>
        have : ∃ z ∈ S, 0 < K x z := by
          by_contra hno
          push Not at hno
          have := hK.sum x hx
          have h0 := Finset.sum_nonpos hno
          linarith
        obtain ⟨z, hz, hpos⟩ := this
        obtain ⟨l', e1, e2⟩ := ih [] z hz (.singleton z)
        exact ⟨z :: l', .cons_cons ⟨hx, hz, hpos⟩ e1, by simp [e2]⟩
      | cons z l ih' =>
        obtain ⟨g1, g2⟩ := List.isChain_cons_cons.1 h
        obtain ⟨l', e1, e2⟩ := ih' z g1.2.1 g2
        exact ⟨l', .cons_cons g1 e1, e2⟩
  obtain ⟨l', e1, e2⟩ := hext (n - l.length) l x hx h1
  refine ⟨_, fun z hz => ?_, l ++ l', e1, by rw [List.length_append, e2]; omega, rfl⟩
  refine improve_trans ((lastBest_spec x (l ++ l')).2 y ?_) (h4 z hz)
  rcases List.mem_cons.1 h3 with rfl | h3
  · exact List.mem_cons_self
  · exact List.mem_cons_of_mem _ (List.mem_append_left _ h3)

end best

end GC

import Verif.Lemmas.Tilted
import Verif.Lemmas.InvariantLaw

/-!
# Whole runs of chains that propose with given rates and accept with a probability

In a round of the loop of `MarkovChain.__next__` (chain.py:178-199) the state `y` is proposed with probability `u x * Q x y`, and a valid proposal is accepted with probability
`w x y`.  The list of the states of a run is a path of the Markov chain that draws a valid proposal, with the rates `Q`, and takes it with probability `w`.
-/

set_option linter.unusedSectionVars false
set_option autoImplicit false

namespace GC

variable {R α : Type} [DecidableEq α]

/-- the sum of the rates -/
def rateSum (S : Finset α) (Q : α → α → ℚ) (x : α) : ℚ := ∑ y ∈ S, Q x y

/-- the rates as probabilities -/
def rateKernel (S : Finset α) (Q : α → α → ℚ) (x y : α) : ℚ := Q x y / rateSum S Q x

/-- the transition probabilities of the chain -/
def walkKernel (S : Finset α) (Q w : α → α → ℚ) : α → α → ℚ := tiltRate S (rateKernel S Q) w

/-- `u`, `Q` and `w` are as they should be -/
structure RateWalk (S : Finset α) (u : α → ℚ) (Q w : α → α → ℚ) : Prop where
  nonneg : ∀ x ∈ S, ∀ y ∈ S, 0 ≤ Q x y
  sum : ∀ x ∈ S, 0 < rateSum S Q x
  chance : IsChance S w
  pos : ∀ x ∈ S, 0 < u x
  le : ∀ x ∈ S, u x * rateSum S Q x ≤ 1

/-- a chain with these rates and this acceptance -/
abbrev RateLaw (N d : ℕ) (c : ChainCfg Tape R) (cs : List (Constraint Tape R)) (Good : R → Prop) (φ : R → α) (S : Finset α) (u : α → ℚ) (Q w : α → α → ℚ) : Prop :=
  TryLaw N d c cs Good φ S (tiltRate S (fun x y => u x * Q x y) w) (fun x => 1 - u x * rateSum S Q x)

/-- no state refuses nearly everything -/
def RefusesAtMost (S : Finset α) (u : α → ℚ) (Q : α → α → ℚ) (κ : ℚ) : Prop := 0 ≤ κ ∧ κ < 1 ∧ ∀ x ∈ S, 1 - u x * rateSum S Q x ≤ κ

section walk
variable {N d : ℕ} {c : ChainCfg Tape R} {cs : List (Constraint Tape R)} {Good : R → Prop} {φ : R → α} {S : Finset α} {u π : α → ℚ} {Q w : α → α → ℚ} {κ : ℚ}

theorem RateWalk.rateKernel (h : RateWalk S u Q w) : IsKernel S (rateKernel S Q) where
  nonneg := fun x hx y hy => div_nonneg (h.nonneg x hx y hy) (h.sum x hx).le
  sum := by
    intro x hx
    unfold GC.rateKernel
    rw [← Finset.sum_div]
    exact div_self (h.sum x hx).ne'

theorem RateWalk.isKernel (h : RateWalk S u Q w) : IsKernel S (walkKernel S Q w) := tilt_isKernel h.rateKernel h.chance

theorem RateWalk.refusal (h : RateWalk S u Q w) (hne : S.Nonempty) : ∃ κ, RefusesAtMost S u Q κ := by
  obtain ⟨x, hx, hmax⟩ := S.exists_max_image (fun x => 1 - u x * rateSum S Q x) hne
  refine ⟨1 - u x * rateSum S Q x, ?_, ?_, hmax⟩
  · have := h.le x hx
    linarith
  · have := mul_pos (h.pos x hx) (h.sum x hx)
    linarith

/-- the law of a run, from both sides -/
theorem rate_sandwich (h : RateWalk S u Q w) (hκ : RefusesAtMost S u Q κ) (hT : RateLaw N d c cs Good φ S u Q w) (hN : 0 < N) (n : ℕ) (hsteps : c.totalSteps = (n + 1 : ℕ))
    (hinit : Good c.initial) (ch : Chain Tape R) (hch : ch.isValid = cs) (f body : ℕ) (hf : 0 < f) (hbody : n + 1 < body) (L : ℕ) (hL : n * (f * d) ≤ L)
    {F : List α → ℚ} (hF : ∀ l, 0 ≤ F l) :
    avg N L (fun t => listValue φ F (ch.list c f body t)) ≤ pathMean S (walkKernel S Q w) n (fun l => F (φ c.initial :: l)) (φ c.initial) ∧
      (1 - κ ^ f) ^ n * pathMean S (walkKernel S Q w) n (fun l => F (φ c.initial :: l)) (φ c.initial) ≤ avg N L (fun t => listValue φ F (ch.list c f body t)) := by
  obtain ⟨hκ0, hκ1, hκ⟩ := hκ
  rw [hT.list hN n hsteps hinit ch hch f body hf hbody F L hL, triedKernel_tilt]
  have hρ0 : ∀ x ∈ S, 0 ≤ 1 - u x * rateSum S Q x := fun x hx => by have := h.le x hx; linarith
  have hK := h.rateKernel
  have he : ∀ x ∈ S, ∀ y, triedKernel (fun x y => u x * Q x y) (fun x => 1 - u x * rateSum S Q x) f x y = (1 - (1 - u x * rateSum S Q x) ^ f) * rateKernel S Q x y := by
    intro x hx y
    rw [triedKernel_eq (ρ := fun x => 1 - u x * rateSum S Q x) ((hκ x hx).trans_lt hκ1)]
    unfold rateKernel
    rw [sub_sub_cancel, mul_div_mul_left _ _ (h.pos x hx).ne']
  have hpow : ∀ x ∈ S, (1 - u x * rateSum S Q x) ^ f ≤ κ ^ f := fun x hx => pow_le_pow_left₀ (hρ0 x hx) (hκ x hx) f
  have hpow1 : κ ^ f ≤ 1 := pow_le_one₀ hκ0 hκ1.le
  have g0 : ∀ x ∈ S, ∀ y ∈ S, 0 ≤ triedKernel (fun x y => u x * Q x y) (fun x => 1 - u x * rateSum S Q x) f x y := fun x hx y hy => by
    rw [he x hx y]
    have := hpow x hx
    exact mul_nonneg (by linarith) (hK.nonneg x hx y hy)
  have g1 : ∀ x ∈ S, ∀ y ∈ S, triedKernel (fun x y => u x * Q x y) (fun x => 1 - u x * rateSum S Q x) f x y ≤ rateKernel S Q x y := fun x hx y hy => by
    rw [he x hx y]
    have h1 := pow_nonneg (hρ0 x hx) f
    exact mul_le_of_le_one_left (hK.nonneg x hx y hy) (by linarith)
  have g2 : ∀ x ∈ S, ∀ y ∈ S, (1 - κ ^ f) * rateKernel S Q x y ≤ triedKernel (fun x y => u x * Q x y) (fun x => 1 - u x * rateSum S Q x) f x y := fun x hx y hy => by
    rw [he x hx y]
    have h1 := hpow x hx
    exact mul_le_mul_of_nonneg_right (by linarith) (hK.nonneg x hx y hy)
  have := pathMean_dominated (S := S) (K := walkKernel S Q w) (c := 1 - κ ^ f)
    (K' := tiltRate S (triedKernel (fun x y => u x * Q x y) (fun x => 1 - u x * rateSum S Q x) f) w) (by linarith)
    (fun x hx y hy => tiltRate_nonneg h.chance g0 hx hy) (fun x hx y hy => tiltRate_mono h.chance g1 hx hy)
    (fun x hx y hy => by
      unfold walkKernel
      rw [← tiltRate_smul]
      exact tiltRate_mono h.chance g2 hx hy) n (F := fun l => F (φ c.initial :: l)) (fun l => hF _) (φ c.initial) (hT.mem _ hinit)
  exact ⟨this.2.1, this.2.2⟩

theorem walk_certain (h : RateWalk S u Q w) (n : ℕ) {x : α} (hx : x ∈ S) {F : List α → ℚ} (hF : ∀ l, l.length = n → (∀ y ∈ l, y ∈ S) → F l = 1) :
    pathMean S (walkKernel S Q w) n F x = 1 := by
  have hK := h.isKernel
  have e := pathMean_const hK 1 n x hx
  have h1 := pathMean_mono hK (f := F) (g := fun _ => 1) n (fun l hl hS => (hF l hl hS).le) x hx
  have h2 := pathMean_mono hK (f := fun _ => 1) (g := F) n (fun l hl hS => (hF l hl hS).ge) x hx
  linarith

/-- enough rounds in each step -/
theorem rounds_enough {c : ℚ} (hc0 : 0 ≤ c) (hc1 : c < 1) (n : ℕ) {δ : ℚ} (hδ : 0 < δ) : ∃ f0 : ℕ, ∀ f, f0 ≤ f → 1 - δ ≤ (1 - c ^ f) ^ n := by
  obtain ⟨f0, hf0⟩ := exists_pow_lt_of_lt_one (show 0 < δ / (n + 1 : ℕ) by positivity) hc1
  refine ⟨f0, fun f hf => ?_⟩
  have h1 : c ^ f ≤ c ^ f0 := pow_le_pow_of_le_one hc0 hc1.le hf
  have h2 : c ^ f ≤ 1 := pow_le_one₀ hc0 hc1.le
  have h3 := one_add_mul_le_pow (show (-2 : ℚ) ≤ -c ^ f by linarith) n
  have h4 : (n : ℚ) * c ^ f ≤ δ := by
    have : c ^ f ≤ δ / (n + 1 : ℕ) := h1.trans hf0.le
    rw [le_div_iff₀ (by positivity)] at this
    push_cast at this
    have h5 : 0 ≤ c ^ f := pow_nonneg hc0 f
    linarith
  have e : (1 + -c ^ f) ^ n = (1 - c ^ f) ^ n := by ring
  rw [e] at h3
  linarith

/-- the probability of a list of states -/
theorem rate_run (h : RateWalk S u Q w) (hκ : RefusesAtMost S u Q κ) (hT : RateLaw N d c cs Good φ S u Q w) (hN : 0 < N) (p : List α) (hp : ∀ y ∈ p, y ∈ S)
    (hsteps : c.totalSteps = (p.length + 1 : ℕ)) (hinit : Good c.initial) (ch : Chain Tape R) (hch : ch.isValid = cs) (f body : ℕ) (hf : 0 < f) (hbody : p.length + 1 < body)
    (L : ℕ) (hL : p.length * (f * d) ≤ L) :
    avg N L (fun t => listValue φ (fun l => if l = φ c.initial :: p then 1 else 0) (ch.list c f body t)) ≤ pathProb (walkKernel S Q w) (φ c.initial) p ∧
      (1 - κ ^ f) ^ p.length * pathProb (walkKernel S Q w) (φ c.initial) p ≤
        avg N L (fun t => listValue φ (fun l => if l = φ c.initial :: p then 1 else 0) (ch.list c f body t)) := by
  have := rate_sandwich h hκ hT hN p.length hsteps hinit ch hch f body hf hbody L hL (F := fun l => if l = φ c.initial :: p then 1 else 0) (fun l => by split_ifs <;> norm_num)
  rw [← pathMean_path (S := S) p hp, pathMean_congr p.length (g := fun l => if φ c.initial :: l = φ c.initial :: p then 1 else 0) (fun l _ => by simp) (φ c.initial)]
  exact this

/-- ensemble averages -/
theorem rate_converges (h : RateWalk S u Q w) (hne : S.Nonempty) (hπ : Invariant S (walkKernel S Q w) π) (hc : Connects S (walkKernel S Q w)) (score : α → ℚ) {ε δ : ℚ}
    (hε : 0 < ε) (hδ : 0 < δ) :
    ∃ n0 : ℕ, ∀ n, n0 ≤ n → ∃ f0 : ℕ, ∀ f, f0 ≤ f → ∀ {N d : ℕ} {c : ChainCfg Tape R} {cs : List (Constraint Tape R)} {Good : R → Prop} {φ : R → α},
      RateLaw N d c cs Good φ S u Q w → 0 < N → c.totalSteps = (n + 1 : ℕ) → Good c.initial → ∀ ch : Chain Tape R, ch.isValid = cs → ∀ body L, n + 1 < body → n * (f * d) ≤ L →
      1 - δ ≤ avg N L (fun t => listValue φ (fun l => if |(l.map score).sum / l.length - ∑ y ∈ S, π y * score y| < ε then 1 else 0) (ch.list c f body t)) := by
  obtain ⟨κ, hκ⟩ := h.refusal hne
  obtain ⟨C, hC, hall⟩ := large_numbers_connected h.isKernel hπ hc score
  obtain ⟨n0, hn0⟩ := exists_nat_gt (C / (ε ^ 2 * (δ / 2)))
  refine ⟨n0, fun n hn => ?_⟩
  obtain ⟨f0, hf0⟩ := rounds_enough hκ.1 hκ.2.1 n (half_pos hδ)
  refine ⟨f0 + 1, ?_⟩
  intro f hf N d c cs Good φ hT hN hsteps hinit ch hch body L hbody hL
  have hf' : 0 < f := by omega
  have hx := hT.mem _ hinit
  set g : List α → ℚ := fun l => |(l.map score).sum / l.length - ∑ y ∈ S, π y * score y| with hg
  have h1 := (rate_sandwich h hκ hT hN n hsteps hinit ch hch f body hf' hbody L hL (F := fun l => if g l < ε then 1 else 0) (fun l => by split_ifs <;> norm_num)).2
  have h2 := hall n ε hε _ hx
  have h3 : C / ((n + 1 : ℕ) * ε ^ 2) ≤ δ / 2 := by
    rw [div_lt_iff₀ (by positivity)] at hn0
    rw [div_le_iff₀ (by positivity)]
    have : (n0 : ℚ) ≤ (n + 1 : ℕ) := by exact_mod_cast hn.trans (Nat.le_succ n)
    have h4 : (n0 : ℚ) * (ε ^ 2 * (δ / 2)) ≤ (n + 1 : ℕ) * (ε ^ 2 * (δ / 2)) := mul_le_mul_of_nonneg_right this (by positivity)
    linarith
  have h5 : pathMean S (walkKernel S Q w) n (fun l => if g (φ c.initial :: l) < ε then 1 else 0) (φ c.initial) +
      pathMean S (walkKernel S Q w) n (fun l => if ε ≤ g (φ c.initial :: l) then 1 else 0) (φ c.initial) = 1 := by
    have e := pathMean_lin (S := S) (K := walkKernel S Q w) 1 1 (fun l => if g (φ c.initial :: l) < ε then 1 else 0) (fun l => if ε ≤ g (φ c.initial :: l) then 1 else 0) n (φ c.initial)
    rw [one_mul, one_mul] at e
    rw [← e]
    refine walk_certain h n hx (fun l _ _ => ?_)
    by_cases hl : ε ≤ g (φ c.initial :: l)
    · rw [if_pos hl, if_neg (not_lt.2 hl)]; norm_num
    · rw [if_neg hl, if_pos (not_le.1 hl)]; norm_num
  have h6 := hf0 f (by omega)
  have h7 : 1 - δ / 2 ≤ pathMean S (walkKernel S Q w) n (fun l => if g (φ c.initial :: l) < ε then 1 else 0) (φ c.initial) := by
    have h2' : pathMean S (walkKernel S Q w) n (fun l => if ε ≤ g (φ c.initial :: l) then 1 else 0) (φ c.initial) ≤ C / ((n + 1 : ℕ) * ε ^ 2) := h2
    linarith
  have h8 : pathMean S (walkKernel S Q w) n (fun l => if g (φ c.initial :: l) < ε then 1 else 0) (φ c.initial) ≤ 1 := by
    have : 0 ≤ pathMean S (walkKernel S Q w) n (fun l => if ε ≤ g (φ c.initial :: l) then 1 else 0) (φ c.initial) :=
      pathMean_nonneg h.isKernel.nonneg n (fun l _ _ => by split_ifs <;> norm_num) _ hx
    linarith
  have h9 : 1 - δ ≤ (1 - κ ^ f) ^ n * pathMean S (walkKernel S Q w) n (fun l => if g (φ c.initial :: l) < ε then 1 else 0) (φ c.initial) := by
    rcases le_or_gt 2 δ with hd | hd
    · have h10 : 0 ≤ (1 - κ ^ f) ^ n := pow_nonneg (by have := pow_le_one₀ hκ.1 hκ.2.1.le (n := f); linarith) n
      have h11 : 0 ≤ pathMean S (walkKernel S Q w) n (fun l => if g (φ c.initial :: l) < ε then 1 else 0) (φ c.initial) :=
        pathMean_nonneg h.isKernel.nonneg n (fun l _ _ => by split_ifs <;> norm_num) _ hx
      have := mul_nonneg h10 h11
      linarith
    · have := mul_le_mul h6 h7 (by linarith) (le_trans (by linarith) h6)
      nlinarith
  exact h9.trans h1

/-- one state in which the chain can stay is enough: it forgets where it started -/
theorem forgets_of_loop {K : α → α → ℚ} (hK : IsKernel S K) (hπ : Invariant S K π) (hc : Connects S K) {z : α} (hz : z ∈ S) (hzz : 0 < K z z) : ∃ m δ, 0 < δ ∧ Forgets S K π m δ := by
  have hpos : ∀ x ∈ S, ∀ y ∈ S, ∃ n, 0 < after S K n (atState y) x := by
    intro x hx y hy
    have := hc x hx y hy
    induction this using Relation.ReflTransGen.head_induction_on with
    | refl => exact ⟨0, by show 0 < atState y y; rw [atState_self]; norm_num⟩
    | head h1 h2 ih =>
      obtain ⟨hu, hv, huv⟩ := h1
      obtain ⟨n, hn⟩ := ih hv
      exact ⟨n + 1, after_step_pos hK (fun z _ => atState_nonneg y z) hu hv huv hn⟩
  choose! g hg using hpos
  -- from `z` to `y` in any number of steps that is large enough
  have hwait : ∀ y ∈ S, ∀ n, g z y ≤ n → 0 < after S K n (atState y) z := by
    intro y hy n hn
    induction n, hn using Nat.le_induction with
    | base => exact hg z hz y hy
    | succ n _ ih => exact after_step_pos hK (fun v _ => atState_nonneg y v) hz hz hzz ih
  -- from `x` to `z` and then on
  have hthen : ∀ (f : α → ℚ), (∀ v ∈ S, 0 ≤ f v) → 0 < f z → ∀ k, ∀ x ∈ S, 0 < after S K k (atState z) x → 0 < after S K k f x := by
    intro f hf hfz k
    induction k with
    | zero =>
      intro x _ h
      change 0 < atState z x at h
      show 0 < f x
      unfold atState at h
      split_ifs at h with hxz
      · rwa [hxz]
      · exact absurd h (lt_irrefl _)
    | succ k ih =>
      intro x hx h
      change 0 < ∑ v ∈ S, K x v * after S K k (atState z) v at h
      obtain ⟨v, hv, hpos⟩ : ∃ v ∈ S, 0 < K x v * after S K k (atState z) v := by
        by_contra hno
        push Not at hno
        exact absurd h (not_lt.2 (Finset.sum_nonpos hno))
      have h0 := after_nonneg hK (fun u _ => atState_nonneg z u) k v hv
      have hk : 0 < K x v := (pos_iff_pos_of_mul_pos hpos).2 (h0.lt_of_ne (fun e => by rw [← e, mul_zero] at hpos; exact absurd hpos (lt_irrefl _)))
      exact after_step_pos hK hf hx hv hk (ih v hv ((pos_iff_pos_of_mul_pos hpos).1 hk))
  set B := S.sup (fun y => g z y) with hB
  set D := S.sup (fun x => g x z) with hD
  have hall : ∀ x ∈ S, ∀ y ∈ S, 0 < after S K (D + B + 1) (atState y) x := by
    intro x hx y hy
    have h1 : g x z ≤ D := Finset.le_sup (f := fun x => g x z) hx
    have h2 : g z y ≤ B := Finset.le_sup (f := fun y => g z y) hy
    have e : D + B + 1 = g x z + (D + B + 1 - g x z) := by omega
    rw [e, after_add]
    refine hthen _ (fun v hv => after_nonneg hK (fun u _ => atState_nonneg y u) _ v hv) ?_ _ x hx (hg x hx z hz)
    exact hwait y hy _ (by omega)
  obtain ⟨δ, hδ⟩ := forgets_of_pos hπ hall
  exact ⟨_, δ, hδ⟩

/-- the last state of a run -/
theorem rate_last (h : RateWalk S u Q w) (hne : S.Nonempty) (hπ : Invariant S (walkKernel S Q w) π) (hc : Connects S (walkKernel S Q w)) {z : α} (hz : z ∈ S)
    (hzz : 0 < walkKernel S Q w z z) {y : α} (hy : y ∈ S) {δ : ℚ} (hδ : 0 < δ) :
    ∃ n0 : ℕ, ∀ n, n0 ≤ n → ∃ f0 : ℕ, ∀ f, f0 ≤ f → ∀ {N d : ℕ} {c : ChainCfg Tape R} {cs : List (Constraint Tape R)} {Good : R → Prop} {φ : R → α},
      RateLaw N d c cs Good φ S u Q w → 0 < N → c.totalSteps = (n + 1 : ℕ) → Good c.initial → ∀ ch : Chain Tape R, ch.isValid = cs → ∀ body L, n + 1 < body → n * (f * d) ≤ L →
      |avg N L (fun t => listValue φ (fun l => if l.getLast? = some y then 1 else 0) (ch.list c f body t)) - π y| ≤ δ := by
  obtain ⟨κ, hκ⟩ := h.refusal hne
  obtain ⟨m, η, hη, hforget⟩ := forgets_of_loop h.isKernel hπ hc hz hzz
  have hsum : ∑ x ∈ S, π x * (if x = y then 1 else 0) = π y := by
    rw [Finset.sum_eq_single_of_mem y hy (fun x _ hxy => by rw [if_neg hxy, mul_zero]), if_pos rfl, mul_one]
  have hconv : ∀ n, ∀ x ∈ S, |after S (walkKernel S Q w) n (fun x => if x = y then 1 else 0) x - π y| ≤ (1 - η) ^ (n / m) * 1 := by
    have hb : ∀ x ∈ S, |(if x = y then (1 : ℚ) else 0) - ∑ v ∈ S, π v * (if v = y then 1 else 0)| ≤ 1 := by
      intro x _
      rw [hsum]
      have h1 := hπ.nonneg y hy
      have h2 := hπ.le_one y hy
      rw [abs_le]
      split_ifs <;> constructor <;> linarith
    have := hforget.converges h.isKernel hπ hb
    rwa [hsum] at this
  have hη1 : 1 - η < 1 := by linarith
  have hη0 : 0 ≤ 1 - η := by have := hforget.le_one; linarith
  obtain ⟨k0, hk0⟩ := exists_pow_lt_of_lt_one (half_pos hδ) hη1
  refine ⟨m * k0, fun n hn => ?_⟩
  obtain ⟨f0, hf0⟩ := rounds_enough hκ.1 hκ.2.1 n (half_pos hδ)
  refine ⟨f0 + 1, ?_⟩
  intro f hf N d c cs Good φ hT hN hsteps hinit ch hch body L hbody hL
  have hf' : 0 < f := by omega
  have hx := hT.mem _ hinit
  have hs := rate_sandwich h hκ hT hN n hsteps hinit ch hch f body hf' hbody L hL (F := fun l => if l.getLast? = some y then 1 else 0) (fun l => by split_ifs <;> norm_num)
  have he : pathMean S (walkKernel S Q w) n (fun l => if (φ c.initial :: l).getLast? = some y then (1 : ℚ) else 0) (φ c.initial) =
      after S (walkKernel S Q w) n (fun x => if x = y then 1 else 0) (φ c.initial) := by
    rw [← pathMean_last]
    refine pathMean_congr n (fun l _ => ?_) _
    rw [List.getLast?_cons]
    simp only [Option.some.injEq]
  rw [he] at hs
  set q := after S (walkKernel S Q w) n (fun x => if x = y then 1 else 0) (φ c.initial) with hq
  have hq0 : 0 ≤ q := after_nonneg h.isKernel (fun x _ => by split_ifs <;> norm_num) n _ hx
  have hq1 : q ≤ 1 := by
    have := after_abs h.isKernel (f := fun x => if x = y then (1 : ℚ) else 0) (B := 1) (fun x _ => by split_ifs <;> norm_num) n _ hx
    exact (abs_le.1 this).2
  have hclose : |q - π y| ≤ δ / 2 := by
    refine (hconv n _ hx).trans ?_
    rw [mul_one]
    have hm : 0 < m := hforget.pos
    have : k0 ≤ n / m := (Nat.le_div_iff_mul_le hm).2 (by rw [mul_comm]; exact hn)
    exact (pow_le_pow_of_le_one hη0 hη1.le this).trans hk0.le
  have h6 := hf0 f (by omega)
  have h7 : q - δ / 2 ≤ (1 - κ ^ f) ^ n * q := by
    have := mul_le_mul_of_nonneg_right h6 hq0
    nlinarith
  obtain ⟨h8, h9⟩ := abs_le.1 hclose
  rw [abs_le]
  exact ⟨by linarith [hs.2], by linarith [hs.1]⟩

/-- symmetric rates, and acceptance with probability `min 1 (g x / g y)` -/
theorem balance_invariant (h : RateWalk S u Q w) (hne : S.Nonempty) (hsymm : ∀ x ∈ S, ∀ y ∈ S, Q x y = Q y x) {g : α → ℚ} (hg : ∀ x ∈ S, 0 < g x)
    (hw : ∀ x ∈ S, ∀ y ∈ S, w x y = min 1 (g x / g y)) :
    Invariant S (walkKernel S Q w) (fun x => (rateSum S Q x / g x) / ∑ y ∈ S, rateSum S Q y / g y) := by
  have hpos : ∀ x ∈ S, 0 < rateSum S Q x / g x := fun x hx => div_pos (h.sum x hx) (hg x hx)
  have htot : 0 < ∑ x ∈ S, rateSum S Q x / g x := Finset.sum_pos hpos hne
  refine Invariant.of_balance h.isKernel (fun x hx => div_nonneg (hpos x hx).le htot.le) ?_ ?_
  · rw [← Finset.sum_div, div_self htot.ne']
  · have key : ∀ x ∈ S, ∀ y ∈ S, x ≠ y → rateSum S Q x / g x / (∑ y ∈ S, rateSum S Q y / g y) * walkKernel S Q w x y =
        Q x y * min (1 / g x) (1 / g y) / ∑ y ∈ S, rateSum S Q y / g y := by
      intro x hx y hy hxy
      unfold walkKernel tiltRate rateKernel
      rw [if_neg (Ne.symm hxy), add_zero, hw x hx y hy]
      have e : min (1 / g x) (1 / g y) = min 1 (g x / g y) / g x := by
        rw [← min_div_div_right (hg x hx).le, div_right_comm, div_self (hg x hx).ne']
      rw [e]
      have h1 := (h.sum x hx).ne'
      have h2 := (hg x hx).ne'
      field_simp
    intro x hx y hy
    by_cases hxy : x = y
    · rw [hxy]
    · rw [key x hx y hy hxy, key y hy x hx (Ne.symm hxy), hsymm x hx y hy, min_comm]

/-- it gets everywhere, if it would without refusals -/
theorem walk_connects (h : RateWalk S u Q w) (hw : ∀ x ∈ S, ∀ y ∈ S, 0 < w x y)
    (hc : ∀ x ∈ S, ∀ y ∈ S, Relation.ReflTransGen (fun a b => a ∈ S ∧ b ∈ S ∧ 0 < Q a b) x y) : Connects S (walkKernel S Q w) := by
  intro x hx y hy
  refine Relation.ReflTransGen.lift id (fun a b hab => ?_) _ _ (hc x hx y hy)
  obtain ⟨ha, hb, hpos⟩ := hab
  refine ⟨ha, hb, ?_⟩
  show 0 < tiltRate S (rateKernel S Q) w a b
  unfold tiltRate
  have h1 : 0 < rateKernel S Q a b * w a b := mul_pos (div_pos hpos (h.sum a ha)) (hw a ha b hb)
  have h2 : 0 ≤ if b = a then ∑ z ∈ S, rateKernel S Q a z * (1 - w a z) else 0 := by
    split_ifs
    · exact Finset.sum_nonneg (fun z hz => mul_nonneg (h.rateKernel.nonneg a ha z hz) (by have := (h.chance a ha z hz).2; linarith))
    · exact le_rfl
  show 0 < _
  linarith

/-- it can stay where a step may be refused -/
theorem walk_loop (h : RateWalk S u Q w) {x y : α} (hx : x ∈ S) (hy : y ∈ S) (hpos : 0 < Q x y) (hw : w x y < 1) : 0 < walkKernel S Q w x x := by
  unfold walkKernel tiltRate
  rw [if_pos rfl]
  have h1 : 0 ≤ rateKernel S Q x x * w x x := mul_nonneg (h.rateKernel.nonneg x hx x hx) (h.chance x hx x hx).1
  have h2 : 0 < ∑ z ∈ S, rateKernel S Q x z * (1 - w x z) := by
    refine Finset.sum_pos' (fun z hz => mul_nonneg (h.rateKernel.nonneg x hx z hz) (by have := (h.chance x hx z hz).2; linarith)) ⟨y, hy, ?_⟩
    exact mul_pos (div_pos hpos (h.sum x hx)) (by linarith)
  linarith

end walk

end GC

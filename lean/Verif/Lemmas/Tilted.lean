import Verif.Lemmas.BurstLaw

/-!
# Chains that accept with a probability

As in `RetryRun`, but the acceptance function draws a random number: a proposal that satisfies the constraints is accepted with a probability that depends on the state and
the proposed one, and otherwise the state stays (chain.py:190-194).  Then runs of such chains that look for the best state, with one long chain
(`SingleMetricOptimizer.tilted_run`, optimization/optimization.py:572-607) or in bursts (`tilted_short_bursts`, 475-506).
-/

set_option linter.unusedSectionVars false
set_option autoImplicit false

namespace GC

variable {R α : Type}

/-- the rate of the steps if a step from `x` to `y` is accepted with probability `w x y`, and the state stays otherwise -/
def tiltRate [DecidableEq α] (S : Finset α) (A w : α → α → ℚ) (x y : α) : ℚ := A x y * w x y + if y = x then ∑ z ∈ S, A x z * (1 - w x z) else 0

/-- the acceptance function accepts with probability `q` -/
structure AcceptsWith (N d : ℕ) (m : M Tape Bool) (q : ℚ) : Prop where
  ok : ∀ t, ∃ b, (m t).1 = .ok b
  law : ∀ L, d ≤ L → avg N L (fun t => if (m t).1 = .ok true then 1 else 0) = q

/-- the end of a round: acceptance (chain.py:190-194) -/
def decideOn (accept : R → M Tape Bool) (x : R) : Option R → M Tape (Option R)
  | none => pure none
  | some y => do
    let b ← accept y
    pure (some (if b then y else x))

section tilt
variable [DecidableEq α] {N d d' : ℕ} {c c' : ChainCfg Tape R} {cs : List (Constraint Tape R)} {Good : R → Prop} {φ : R → α} {S : Finset α} {A w : α → α → ℚ} {ρ : α → ℚ}

theorem oneTry_always (hacc : ∀ y t, c.accept y t = (.ok true, t)) (x : R) (t : Tape) : oneTry c cs x t =
    match c.proposal x t with
    | (.error e, s) => (.error e, s)
    | (.ok q, s) => match validator q cs s with
      | (.error e, s1) => (.error e, s1)
      | (.ok v, s1) => (.ok (if v = true then some q else none), s1) := by
  show M.bind (c.proposal x) _ t = _
  unfold M.bind
  rcases c.proposal x t with ⟨_ | q, s⟩
  · rfl
  · dsimp only
    show M.bind (validator q cs) _ s = _
    unfold M.bind
    rcases validator q cs s with ⟨_ | v, s1⟩
    · rfl
    · cases v with
      | false => rfl
      | true =>
        dsimp only
        show M.bind (c.accept q) _ s1 = _
        unfold M.bind
        rw [hacc q s1]
        rfl

/-- the state a round leads to is the proposed one -/
theorem oneTry_proposed (hacc : ∀ y t, c.accept y t = (.ok true, t)) {x y : R} {t : Tape} (h : (oneTry c cs x t).1 = .ok (some y)) : (c.proposal x t).1 = .ok y := by
  rw [oneTry_always hacc] at h
  rcases hp : c.proposal x t with ⟨_ | q, s⟩ <;> rw [hp] at h
  · cases h
  · dsimp only at h
    rcases hv : validator q cs s with ⟨_ | v, s1⟩ <;> rw [hv] at h
    · cases h
    · cases v
      · cases h
      · cases h
        rfl

/-- a round with an acceptance function is a round that accepts always, and the acceptance function afterwards -/
theorem oneTry_decide (hacc : ∀ y t, c.accept y t = (.ok true, t)) (hprop : c'.proposal = c.proposal) (x : R) :
    oneTry c' cs x = oneTry c cs x >>= decideOn c'.accept x := by
  funext t
  show M.bind (c'.proposal x) _ t = M.bind (oneTry c cs x) _ t
  rw [hprop]
  unfold M.bind
  rw [oneTry_always hacc]
  rcases c.proposal x t with ⟨_ | q, s⟩
  · rfl
  · dsimp only
    show M.bind (validator q cs) _ s = _
    unfold M.bind
    rcases validator q cs s with ⟨_ | v, s1⟩
    · rfl
    · cases v <;> rfl

theorem decideOn_some {accept : R → M Tape Bool} {x y : R} {t : Tape} {b : Bool} (h : (accept y t).1 = .ok b) : (decideOn accept x (some y) t).1 = .ok (some (if b then y else x)) := by
  show (M.bind (accept y) _ t).1 = _
  unfold M.bind
  rcases hr : accept y t with ⟨r, s⟩
  rw [hr] at h
  cases h
  rfl

/-- The law of one round, if the acceptance function draws. -/
theorem TryLaw.tilt (h : TryLaw N d c cs Good φ S A ρ) (hN : 0 < N) (hacc : ∀ y t, c.accept y t = (.ok true, t)) (hprop : c'.proposal = c.proposal)
    (herase : ∀ x t, c'.erase x t = t) (hdraws : ∀ y, Draws d' (c'.accept y))
    (hw : ∀ x, Good x → ∀ t y, (oneTry c cs x t).1 = .ok (some y) → AcceptsWith N d' (c'.accept y) (w (φ x) (φ y))) :
    TryLaw N (d + d') c' cs Good φ S (tiltRate S A w) ρ where
  erase := herase
  draws := by
    intro x hx
    rw [oneTry_decide hacc hprop x]
    refine (h.draws x hx).bind (fun o => ?_)
    cases o with
    | none => exact .done (.ok none) (fun t => rfl)
    | some y => exact (hdraws y).bind (j := 0) (fun b => .done (.ok (some (if b then y else x))) (fun t => rfl))
  good := by
    intro x hx t z hz
    rw [oneTry_decide hacc hprop x] at hz
    change (M.bind (oneTry c cs x) (decideOn c'.accept x) t).1 = _ at hz
    unfold M.bind at hz
    have hg := h.good x hx t
    have hww := hw x hx t
    rcases hr : oneTry c cs x t with ⟨_ | _ | y, s⟩ <;> rw [hr] at hz hg hww
    · cases hz
    · cases hz
    · obtain ⟨b, hb⟩ := (hww y rfl).ok s
      dsimp only at hz
      rw [decideOn_some hb] at hz
      cases b
      · cases hz; exact hx
      · cases hz; exact hg y rfl
  noStop := by
    intro x hx t hz
    rw [oneTry_decide hacc hprop x] at hz
    change (M.bind (oneTry c cs x) (decideOn c'.accept x) t).1 = _ at hz
    unfold M.bind at hz
    have hg := h.noStop x hx t
    have hww := hw x hx t
    rcases hr : oneTry c cs x t with ⟨_ | _ | y, s⟩ <;> rw [hr] at hz hg hww
    · exact hg hz
    · cases hz
    · obtain ⟨b, hb⟩ := (hww y rfl).ok s
      dsimp only at hz
      rw [decideOn_some hb] at hz
      cases hz
  mem := h.mem
  law := by
    intro x hx z hz
    set Φ : Py (Option R) → Tape → ℚ := fun r t => match r with
      | .ok o => triedTo φ z (decideOn c'.accept x o t).1
      | .error _ => 0 with hΦ
    set χ : Py (Option R) → ℚ := fun r => match r with
      | .ok (some y) => w (φ x) (φ y) * (if φ y = z then 1 else 0) + (1 - w (φ x) (φ y)) * (if φ x = z then 1 else 0)
      | _ => 0 with hχ
    have hpoint : ∀ t, triedTo φ z (oneTry c' cs x t).1 = Φ (oneTry c cs x t).1 (oneTry c cs x t).2 := by
      intro t
      rw [oneTry_decide hacc hprop x]
      show triedTo φ z (M.bind (oneTry c cs x) (decideOn c'.accept x) t).1 = _
      unfold M.bind
      rcases oneTry c cs x t with ⟨_ | o, s⟩ <;> rfl
    rw [avg_congr N _ hpoint, avg_draws_reach hN (h.draws x hx) (Φ := Φ) (ψ := χ) d' (d + d') le_rfl ?_ d le_rfl]
    · have hsplit : ∀ t, χ (oneTry c cs x t).1 = ∑ y ∈ S, (w (φ x) y * (if y = z then 1 else 0) + (1 - w (φ x) y) * (if φ x = z then 1 else 0)) *
          triedTo φ y (oneTry c cs x t).1 := by
        intro t
        have hgood := h.good x hx t
        generalize (oneTry c cs x t).1 = r at hgood ⊢
        rcases r with e | _ | y
        · simp [hχ, triedTo]
        · simp [hχ, triedTo]
        · simp only [hχ, triedTo]
          rw [Finset.sum_eq_single_of_mem (φ y) (h.mem y (hgood y rfl)), if_pos (rfl : φ y = φ y), mul_one]
          intro u _ hu
          rw [if_neg (Ne.symm hu), mul_zero]
      rw [avg_congr N d hsplit, avg_finset_sum]
      have hterm : ∀ y ∈ S, avg N d (fun t => (w (φ x) y * (if y = z then 1 else 0) + (1 - w (φ x) y) * (if φ x = z then 1 else 0)) * triedTo φ y (oneTry c cs x t).1) =
          (if y = z then A (φ x) z * w (φ x) z else 0) + (if z = φ x then A (φ x) y * (1 - w (φ x) y) else 0) := by
        intro y hy
        rw [avg_mul, h.law x hx y hy]
        by_cases h1 : y = z
        · subst h1
          by_cases h2 : φ x = y
          · rw [if_pos rfl, if_pos h2, if_pos rfl, if_pos h2.symm]; ring
          · rw [if_pos rfl, if_neg h2, if_pos rfl, if_neg (Ne.symm h2)]; ring
        · by_cases h2 : φ x = z
          · rw [if_neg h1, if_pos h2, if_neg h1, if_pos h2.symm]; ring
          · rw [if_neg h1, if_neg h2, if_neg h1, if_neg (Ne.symm h2)]; ring
      rw [Finset.sum_congr rfl hterm, Finset.sum_add_distrib, Finset.sum_ite_eq', if_pos hz]
      unfold tiltRate
      congr 1
      split_ifs
      · rfl
      · exact Finset.sum_const_zero
    · intro t L' hL'
      have hww := hw x hx t
      generalize (oneTry c cs x t).1 = r at hww ⊢
      rcases r with e | _ | y
      · exact avg_const hN L' 0
      · exact avg_const hN L' 0
      · have hy := hww y rfl
        have e : ∀ t', Φ (.ok (some y)) t' = ((if φ y = z then 1 else 0) - (if φ x = z then 1 else 0)) * (if (c'.accept y t').1 = .ok true then (1 : ℚ) else 0) +
            (if φ x = z then 1 else 0) := by
          intro t'
          obtain ⟨b, hb⟩ := hy.ok t'
          simp only [hΦ]
          rw [decideOn_some hb, hb]
          cases b
          · simp [triedTo]
          · simp [triedTo]
        rw [avg_congr N L' e, avg_add, avg_mul, hy.law L' hL', avg_const hN]
        simp only [hχ]
        ring
  refuse := by
    intro x hx
    rw [← h.refuse x hx]
    set Φ : Py (Option R) → Tape → ℚ := fun r t => match r with
      | .ok o => wasRefused (decideOn c'.accept x o t).1
      | .error _ => 0 with hΦ
    have hpoint : ∀ t, wasRefused (oneTry c' cs x t).1 = Φ (oneTry c cs x t).1 (oneTry c cs x t).2 := by
      intro t
      rw [oneTry_decide hacc hprop x]
      show wasRefused (M.bind (oneTry c cs x) (decideOn c'.accept x) t).1 = _
      unfold M.bind
      rcases oneTry c cs x t with ⟨_ | o, s⟩ <;> rfl
    rw [avg_congr N _ hpoint, avg_draws_reach hN (h.draws x hx) (Φ := Φ) (ψ := wasRefused) d' (d + d') le_rfl ?_ d le_rfl]
    intro t L' hL'
    have hww := hw x hx t
    generalize (oneTry c cs x t).1 = r at hww ⊢
    rcases r with e | _ | y
    · exact avg_const hN L' 0
    · exact avg_const hN L' 1
    · have e : ∀ t', Φ (.ok (some y)) t' = 0 := by
        intro t'
        obtain ⟨b, hb⟩ := (hww y rfl).ok t'
        simp only [hΦ]
        rw [decideOn_some hb]
        rfl
      rw [avg_congr N L' e, avg_const hN]
      rfl

end tilt

/-! ### The Markov chain -/

section kernel
variable [DecidableEq α] {S : Finset α} {K K' w : α → α → ℚ}

/-- rounds that are repeated when refused -/
theorem triedKernel_tilt (A : α → α → ℚ) (ρ : α → ℚ) (f : ℕ) : triedKernel (tiltRate S A w) ρ f = tiltRate S (triedKernel A ρ f) w := by
  funext x y
  unfold triedKernel tiltRate
  rw [add_mul, mul_right_comm]
  congr 1
  split_ifs
  · rw [Finset.sum_mul]
    exact Finset.sum_congr rfl (fun z _ => by ring)
  · exact zero_mul _

/-- the acceptance probabilities are probabilities -/
def IsChance (S : Finset α) (w : α → α → ℚ) : Prop := ∀ x ∈ S, ∀ y ∈ S, 0 ≤ w x y ∧ w x y ≤ 1

theorem tiltRate_mono (hw : IsChance S w) (h : ∀ x ∈ S, ∀ y ∈ S, K x y ≤ K' x y) {x y : α} (hx : x ∈ S) (hy : y ∈ S) : tiltRate S K w x y ≤ tiltRate S K' w x y := by
  unfold tiltRate
  refine add_le_add (mul_le_mul_of_nonneg_right (h x hx y hy) (hw x hx y hy).1) ?_
  split_ifs
  · exact Finset.sum_le_sum (fun z hz => mul_le_mul_of_nonneg_right (h x hx z hz) (by have := (hw x hx z hz).2; linarith))
  · exact le_rfl

theorem tiltRate_nonneg (hw : IsChance S w) (h : ∀ x ∈ S, ∀ y ∈ S, 0 ≤ K x y) {x y : α} (hx : x ∈ S) (hy : y ∈ S) : 0 ≤ tiltRate S K w x y := by
  unfold tiltRate
  refine add_nonneg (mul_nonneg (h x hx y hy) (hw x hx y hy).1) ?_
  split_ifs
  · exact Finset.sum_nonneg (fun z hz => mul_nonneg (h x hx z hz) (by have := (hw x hx z hz).2; linarith))
  · exact le_rfl

theorem tiltRate_smul (c : ℚ) (x y : α) : tiltRate S (fun x y => c * K x y) w x y = c * tiltRate S K w x y := by
  unfold tiltRate
  rw [mul_add, mul_assoc]
  congr 1
  split_ifs
  · rw [Finset.mul_sum]
    exact Finset.sum_congr rfl (fun z _ => by ring)
  · exact (mul_zero c).symm

theorem tilt_isKernel (hK : IsKernel S K) (hw : IsChance S w) : IsKernel S (tiltRate S K w) where
  nonneg := fun _ hx _ hy => tiltRate_nonneg hw hK.nonneg hx hy
  sum := by
    intro x hx
    unfold tiltRate
    rw [Finset.sum_add_distrib, Finset.sum_ite_eq' S x, if_pos hx, ← Finset.sum_add_distrib]
    refine Eq.trans ?_ (hK.sum x hx)
    exact Finset.sum_congr rfl (fun z _ => by ring)

/-- the possible steps -/
theorem tilt_posStep (hK : IsKernel S K) (hw : IsChance S w) {x y : α} :
    PosStep S (tiltRate S K w) x y ↔ (PosStep S K x y ∧ 0 < w x y) ∨ (x = y ∧ ∃ z, PosStep S K x z ∧ w x z < 1) := by
  have hterm : ∀ x ∈ S, ∀ z ∈ S, 0 ≤ K x z * (1 - w x z) := fun x hx z hz => mul_nonneg (hK.nonneg x hx z hz) (by have := (hw x hx z hz).2; linarith)
  constructor
  · rintro ⟨hx, hy, h⟩
    unfold tiltRate at h
    by_cases h1 : 0 < K x y * w x y
    · have h2 : 0 < K x y := (hK.nonneg x hx y hy).lt_of_ne (fun e => by rw [← e, zero_mul] at h1; exact lt_irrefl _ h1)
      exact .inl ⟨⟨hx, hy, h2⟩, (mul_pos_iff_of_pos_left h2).1 h1⟩
    · have h1' : K x y * w x y = 0 := le_antisymm (not_lt.1 h1) (mul_nonneg (hK.nonneg x hx y hy) (hw x hx y hy).1)
      rw [h1', zero_add] at h
      split_ifs at h with hxy
      · obtain ⟨z, hz, hne⟩ := Finset.exists_ne_zero_of_sum_ne_zero h.ne'
        have hpos := (hterm x hx z hz).lt_of_ne (Ne.symm hne)
        have h2 : 0 < K x z := (hK.nonneg x hx z hz).lt_of_ne (fun e => by rw [← e, zero_mul] at hpos; exact lt_irrefl _ hpos)
        have h3 := (mul_pos_iff_of_pos_left h2).1 hpos
        exact .inr ⟨hxy.symm, z, ⟨hx, hz, h2⟩, by linarith⟩
      · exact absurd h (lt_irrefl _)
  · rintro (⟨⟨hx, hy, h1⟩, h2⟩ | ⟨rfl, z, ⟨hx, hz, h1⟩, h2⟩)
    · refine ⟨hx, hy, ?_⟩
      unfold tiltRate
      refine add_pos_of_pos_of_nonneg (mul_pos h1 h2) ?_
      split_ifs
      · exact Finset.sum_nonneg (hterm x hx)
      · exact le_rfl
    · refine ⟨hx, hx, ?_⟩
      unfold tiltRate
      rw [if_pos rfl]
      refine add_pos_of_nonneg_of_pos (mul_nonneg (hK.nonneg x hx x hx) (hw x hx x hx).1) ?_
      exact Finset.sum_pos' (hterm x hx) ⟨z, hz, mul_pos h1 (by linarith)⟩

/-- what can be reached -/
theorem tilt_reach (hK : IsKernel S K) (hw : IsChance S w) {x y : α} :
    Relation.ReflTransGen (PosStep S (tiltRate S K w)) x y ↔ Relation.ReflTransGen (fun u v => PosStep S K u v ∧ 0 < w u v) x y := by
  constructor
  · intro h
    induction h with
    | refl => exact .refl
    | tail _ h ih =>
      rcases (tilt_posStep hK hw).1 h with h | ⟨rfl, -⟩
      · exact ih.tail h
      · exact ih
  · intro h
    induction h with
    | refl => exact .refl
    | tail _ h ih => exact ih.tail ((tilt_posStep hK hw).2 (.inl h))

end kernel

/-! ### One long run -/

section run
variable {A : Type} [LinearOrder A] [DecidableEq α] {N d : ℕ} {o : OptCfg Tape R A} {accept : R → M Tape Bool} {Good : R → Prop} {φ : R → α} {S : Finset α} {B : α → α → ℚ}
  {ρ : α → ℚ} {σ : α → A}

/-- the best state after one chain (`tilted_run`, optimization/optimization.py:572-607) -/
theorem OptLaw.single_run (h : OptLaw N d o accept Good φ S B ρ σ) (hN : 0 < N) (f : ℕ) (hf : 0 < f) (hinit : Good o.initial) (T : R × A → Prop) [DecidablePred T]
    (T' : α → Prop) [DecidablePred T'] (hT : ∀ b : R × A, Good b.1 → b.2 = σ (φ b.1) → (T b ↔ T' (φ b.1))) (n body : ℕ) (hbody : n + 1 < body) (L : ℕ)
    (hL : n * (f * d) ≤ L) :
    avg N L (fun t => endsWith T (o.singleRun accept (n + 1 : ℕ) f body t)) = burstsMean S (triedKernel B ρ f) n σ o.maximize 1 (isIn T') (φ o.initial) := by
  rw [← h.short_bursts hN f hf hinit T T' hT n 1 body hbody L (by rwa [Nat.one_mul])]
  refine avg_congr N L (fun t => ?_)
  have hch : Chain.init (o.chain accept o.initial ((n + 1 : ℕ) : ℤ)) o.constraints t = (.ok ⟨o.constraints, none, o.initial⟩, t) := by
    unfold Chain.init checkInitial
    have e : (o.chain accept o.initial ((n + 1 : ℕ) : ℤ)).initial = o.initial := rfl
    rw [e, h.valid o.initial hinit t]
  unfold OptCfg.singleRun OptCfg.shortBursts
  rw [hch]
  dsimp only
  rw [h.score o.initial hinit t]
  unfold endsWith
  unfold OptCfg.bursts
  dsimp only
  have hb : o.burst accept ((n + 1 : ℕ) : ℤ) f body (o.initial, σ (φ o.initial)) t =
      o.watch (o.chain accept o.initial ((n + 1 : ℕ) : ℤ)) f body (Chain.iter (o.chain accept o.initial ((n + 1 : ℕ) : ℤ)) ⟨o.constraints, none, o.initial⟩)
        (o.initial, σ (φ o.initial)) t := by
    unfold OptCfg.burst
    rw [hch]
  rw [← hb]
  generalize o.burst accept ((n + 1 : ℕ) : ℤ) f body (o.initial, σ (φ o.initial)) t = r
  rcases r with ⟨st, y, tr, be, wd⟩
  rcases st with _ | e | _ <;> rfl

end run

section longrun
variable {A : Type} [LinearOrder A] [DecidableEq α] {S : Finset α} {K : α → α → ℚ} {σ : α → A} {mx : Bool}

/-- the chain that stops at the first optimal state -/
def stopKernel (S : Finset α) (K : α → α → ℚ) (σ : α → A) (mx : Bool) (x y : α) : ℚ := if IsOptimal S σ mx x then (if y = x then 1 else 0) else K x y

theorem stop_isKernel (hK : IsKernel S K) : IsKernel S (stopKernel S K σ mx) where
  nonneg := by
    intro x hx y hy
    unfold stopKernel
    split_ifs
    · exact zero_le_one
    · exact le_rfl
    · exact hK.nonneg x hx y hy
  sum := by
    intro x hx
    unfold stopKernel
    split_ifs
    · rw [Finset.sum_ite_eq' S x, if_pos hx]
    · exact hK.sum x hx

theorem stop_posStep {x y : α} : PosStep S (stopKernel S K σ mx) x y ↔ (IsOptimal S σ mx x ∧ x ∈ S ∧ y = x) ∨ (¬ IsOptimal S σ mx x ∧ PosStep S K x y) := by
  unfold PosStep stopKernel
  by_cases h : IsOptimal S σ mx x
  · rw [if_pos h]
    constructor
    · rintro ⟨h1, h2, h3⟩
      split_ifs at h3 with hxy
      · exact .inl ⟨h, h1, hxy⟩
      · exact absurd h3 (lt_irrefl _)
    · rintro (⟨-, h1, rfl⟩ | ⟨h', -⟩)
      · exact ⟨h1, h1, by rw [if_pos rfl]; exact one_pos⟩
      · exact absurd h h'
  · rw [if_neg h]
    constructor
    · exact fun h' => .inr ⟨h, h'⟩
    · rintro (⟨h', -⟩ | ⟨-, h'⟩)
      · exact absurd h' h
      · exact h'

/-- the probability that a run has found an optimal state is that of the stopped chain -/
theorem run_stopped (hK : IsKernel S K) (n : ℕ) : ∀ x ∈ S, burstsMean S K n σ mx 1 (isIn (IsOptimal S σ mx)) x = after S (stopKernel S K σ mx) n (isIn (IsOptimal S σ mx)) x := by
  have hstop := stop_isKernel (σ := σ) (mx := mx) hK
  have hclosed : ∀ x ∈ S, IsOptimal S σ mx x → ∀ y ∈ S, 0 < stopKernel S K σ mx x y → IsOptimal S σ mx y := by
    intro x hx h y hy hpos
    rcases stop_posStep.1 ⟨hx, hy, hpos⟩ with ⟨-, -, rfl⟩ | ⟨h', -⟩
    · exact h
    · exact absurd h h'
  have key : ∀ (n : ℕ), ∀ b ∈ S, ∀ x ∈ S, (IsOptimal S σ mx b → pathMean S K n (fun l => isIn (IsOptimal S σ mx) (lastBest σ mx b l)) x = 1) ∧
      (¬ IsOptimal S σ mx b → ¬ IsOptimal S σ mx x →
        pathMean S K n (fun l => isIn (IsOptimal S σ mx) (lastBest σ mx b l)) x = after S (stopKernel S K σ mx) n (isIn (IsOptimal S σ mx)) x) := by
    intro n
    induction n with
    | zero =>
      intro b _ x _
      refine ⟨fun h => if_pos h, fun h1 h2 => ?_⟩
      show isIn _ b = isIn _ x
      unfold isIn
      rw [if_neg h1, if_neg h2]
    | succ n ih =>
      intro b hb x hx
      have hmem : ∀ y ∈ S, (if isImprovement mx (σ y) (σ b) then y else b) ∈ S := fun y hy => by split_ifs; exacts [hy, hb]
      constructor
      · intro h
        show ∑ y ∈ S, K x y * pathMean S K n (fun l => isIn (IsOptimal S σ mx) (lastBest σ mx (if isImprovement mx (σ y) (σ b) then y else b) l)) y = 1
        rw [← hK.sum x hx]
        refine Finset.sum_congr rfl (fun y hy => ?_)
        have : IsOptimal S σ mx (if isImprovement mx (σ y) (σ b) then y else b) := by
          split_ifs with hi
          · exact fun z hz => improve_trans hi (h z hz)
          · exact h
        rw [(ih _ (hmem y hy) y hy).1 this, mul_one]
      · intro h1 h2
        show ∑ y ∈ S, K x y * pathMean S K n (fun l => isIn (IsOptimal S σ mx) (lastBest σ mx (if isImprovement mx (σ y) (σ b) then y else b) l)) y =
          ∑ y ∈ S, stopKernel S K σ mx x y * after S (stopKernel S K σ mx) n (isIn (IsOptimal S σ mx)) y
        refine Finset.sum_congr rfl (fun y hy => ?_)
        have hk : stopKernel S K σ mx x y = K x y := if_neg h2
        rw [hk]
        by_cases hy' : IsOptimal S σ mx y
        · rw [if_pos (hy' b hb), (ih y hy y hy).1 hy', after_inside hstop hclosed n y hy hy']
        · have : ¬ IsOptimal S σ mx (if isImprovement mx (σ y) (σ b) then y else b) := by
            split_ifs
            · exact hy'
            · exact h1
          rw [(ih _ (hmem y hy) y hy).2 this hy']
  intro x hx
  show pathMean S K n (fun l => isIn (IsOptimal S σ mx) (lastBest σ mx x l)) x = _
  by_cases h : IsOptimal S σ mx x
  · rw [(key n x hx x hx).1 h, after_inside hstop hclosed n x hx h]
  · exact (key n x hx x hx).2 h h

/-- A long run finds an optimal state almost surely if and only if it can find one from everywhere it can get to.  (If it can find its way back to the optimal ones after
having left them.) -/
theorem run_find_iff (hK : IsKernel S K) {x0 : α} (hx0 : x0 ∈ S)
    (hback : ∀ x, IsOptimal S σ mx x → ∀ y, Relation.ReflTransGen (PosStep S K) x y → ∃ z, IsOptimal S σ mx z ∧ Relation.ReflTransGen (PosStep S K) y z) :
    (∀ x, Relation.ReflTransGen (PosStep S K) x0 x → ∃ y, IsOptimal S σ mx y ∧ Relation.ReflTransGen (PosStep S K) x y) ↔
      ∀ δ : ℚ, 0 < δ → ∃ n0 : ℕ, ∀ n, n0 ≤ n → 1 - δ ≤ burstsMean S K n σ mx 1 (isIn (IsOptimal S σ mx)) x0 := by
  have hstop := stop_isKernel (σ := σ) (mx := mx) hK
  have hclosed : ∀ x ∈ S, IsOptimal S σ mx x → ∀ y ∈ S, 0 < stopKernel S K σ mx x y → IsOptimal S σ mx y := by
    intro x hx h y hy hpos
    rcases stop_posStep.1 ⟨hx, hy, hpos⟩ with ⟨-, -, rfl⟩ | ⟨h', -⟩
    · exact h
    · exact absurd h h'
  have hle : ∀ x y, Relation.ReflTransGen (PosStep S (stopKernel S K σ mx)) x y → Relation.ReflTransGen (PosStep S K) x y := by
    intro x y h
    induction h with
    | refl => exact .refl
    | tail _ h ih =>
      rcases stop_posStep.1 h with ⟨-, -, rfl⟩ | ⟨-, h⟩
      · exact ih
      · exact ih.tail h
  have hsplit : ∀ x y, Relation.ReflTransGen (PosStep S K) x y →
      Relation.ReflTransGen (PosStep S (stopKernel S K σ mx)) x y ∨
        ∃ o, IsOptimal S σ mx o ∧ Relation.ReflTransGen (PosStep S (stopKernel S K σ mx)) x o ∧ Relation.ReflTransGen (PosStep S K) o y := by
    intro x y h
    induction h with
    | refl => exact .inl .refl
    | @tail u v _ h ih =>
      rcases ih with ih | ⟨o, h1, h2, h3⟩
      · by_cases ho : IsOptimal S σ mx u
        · exact .inr ⟨u, ho, ih, .single h⟩
        · exact .inl (ih.tail (stop_posStep.2 (.inr ⟨ho, h⟩)))
      · exact .inr ⟨o, h1, h2, h3.tail h⟩
  have hiff := absorbed_iff (T := IsOptimal S σ mx) hstop hclosed hx0
  rw [show (∀ δ : ℚ, 0 < δ → ∃ n0 : ℕ, ∀ n, n0 ≤ n → 1 - δ ≤ burstsMean S K n σ mx 1 (isIn (IsOptimal S σ mx)) x0) ↔
      ∀ δ : ℚ, 0 < δ → ∃ n0 : ℕ, ∀ n, n0 ≤ n → 1 - δ ≤ after S (stopKernel S K σ mx) n (isIn (IsOptimal S σ mx)) x0 from
    forall_congr' (fun δ => imp_congr_right (fun _ => exists_congr (fun n0 => forall_congr' (fun n => imp_congr_right (fun _ => by rw [run_stopped hK n x0 hx0]))))), ← hiff]
  constructor
  · intro h x hx
    obtain ⟨y, hy, hr⟩ := h x (hle _ _ hx)
    rcases hsplit x y hr with h | ⟨o, h1, h2, -⟩
    · exact ⟨y, hy, h⟩
    · exact ⟨o, h1, h2⟩
  · intro h x hx
    rcases hsplit x0 x hx with hs | ⟨o, h1, -, h3⟩
    · obtain ⟨y, hy, hr⟩ := h x hs
      exact ⟨y, hy, hle _ _ hr⟩
    · exact hback o h1 x h3

end longrun

end GC

import Mathlib.Analysis.Complex.ExponentialBounds
import Verif.Lemmas.Timed
import Verif.Props.TiltedRuns
import Verif.Props.Schedules

/-!
# C118: when annealed runs find the best plan

`SingleMetricOptimizer.simulated_annealing` (optimization/optimization.py:155-184, 427-473) with a schedule that repeats itself, such as the library's cycles, and with the
proposals `slow_reversible_propose`, `slow_reversible_propose_bi` and `recom`.  The schedule is evaluated at the number of accepted moves so far plus one: the value of the `step`
updater of the proposed plan.
-/

set_option linter.unusedSectionVars false
set_option autoImplicit false

namespace GC

variable {V P : Type} [LinearOrder V] [LinearOrder P]

/-- the acceptance function that `simulated_annealing(num_steps, beta_function, beta_magnitude)` makes (optimization/optimization.py:155-184), for plans with the value of the `step`
updater; `random.random()` is one of `0, 1/N, …, (N-1)/N` -/
noncomputable def annealOn (N : ℕ) (o : OptCfg Tape (PlanState V P) ℝ) (beta : ℤ → Py ℝ) (mag : ℝ) : PlanState V P × ℕ → M Tape Bool :=
  annealAccept o.maximize (fun x => pure (x.1.parent.map (fun b => (⟨b, none⟩, x.2 - 1)))) (fun x => o.score x.1) (do let u ← (uniRand N).random; pure (u : ℝ))
    (fun x => pure (x.2 : ℤ)) beta mag

/-- how much worse `new` is than `old` -/
def worsening (mx : Bool) (new old : ℝ) : ℝ := if mx then old - new else new - old

/-- the schedule repeats itself after `T` steps and has the values `b` -/
def Cycles (T : ℕ) (beta : ℤ → Py ℝ) (b : ℕ → ℝ) : Prop := 0 < T ∧ ∀ t : ℕ, beta t = .ok (b (t % T))

/-- `math.exp` does not overflow for any pair of scores -/
def NoOverflow {α : Type} (S : Finset α) (T : ℕ) (b : ℕ → ℝ) (mag : ℝ) (σ : α → ℝ) (mx : Bool) : Prop :=
  ∀ k, k < T → ∀ x ∈ S, ∀ y ∈ S, Real.exp (-(b k * mag * worsening mx (σ y) (σ x))) < 2 ^ 1024

open Classical in
/-- the probability that a step from `x` to `y` is accepted, where `y` comes with the number of steps: the part of the numbers `0, 1/N, …` that are less than
`exp(-beta * magnitude * delta)` -/
noncomputable def annealChance {α : Type} (N : ℕ) (b : ℕ → ℝ) (mag : ℝ) (σ : α → ℝ) (mx : Bool) (x y : α × ℕ) : ℚ :=
  (((Finset.range N).filter (fun i : ℕ => (((i : ℚ) / (N : ℚ) : ℚ) : ℝ) < Real.exp (-(b y.2 * mag * worsening mx (σ y.1) (σ x.1))))).card : ℚ) / N

/-! ### The acceptance function -/

section accept
variable {α : Type} {N T : ℕ} {o : OptCfg Tape (PlanState V P) ℝ} {φ : PlanState V P → α} {σ : α → ℝ} {beta : ℤ → Py ℝ} {b : ℕ → ℝ} {mag : ℝ}

theorem annealOn_eq (hb : Cycles T beta b) (hscore : ∀ x t, o.score x t = (.ok (σ (φ x)), t)) (y : PlanState V P × ℕ) (t : Tape) : annealOn N o beta mag y t =
    match y.1.parent with
    | none => (.ok true, t)
    | some p => match mathExp (-(b (y.2 % T) * mag * worsening o.maximize (σ (φ y.1)) (σ (φ ⟨p, none⟩)))) with
      | .error e => (.error e, t.tail)
      | .ok v => (.ok (decide (((((t.headD 0 % N : ℕ) : ℚ) / (N : ℚ) : ℚ) : ℝ) < v)), t.tail) := by
  unfold annealOn annealAccept
  rcases y with ⟨⟨pl, _ | p⟩, k⟩
  · rfl
  · have he : -(b (k % T)) * mag * (if o.maximize = true then (σ (φ ⟨pl, some p⟩) - σ (φ ⟨p, none⟩)) * (-1) else σ (φ ⟨pl, some p⟩) - σ (φ ⟨p, none⟩)) =
        -(b (k % T) * mag * worsening o.maximize (σ (φ ⟨pl, some p⟩)) (σ (φ ⟨p, none⟩))) := by
      unfold worsening
      split_ifs <;> ring
    show M.bind (o.score ⟨pl, some p⟩) _ t = _
    unfold M.bind
    rw [hscore]
    dsimp only
    show M.bind (o.score ⟨p, none⟩) _ t = _
    unfold M.bind
    rw [hscore]
    dsimp only
    show M.bind (M.lift (beta (k : ℤ))) _ t = _
    rw [hb.2 k]
    unfold M.bind
    show M.bind _ _ t = _
    unfold M.bind
    rw [random_real]
    dsimp only
    rw [he]
    show M.bind (M.lift _) _ t.tail = _
    unfold M.bind
    rcases mathExp (-(b (k % T) * mag * worsening o.maximize (σ (φ ⟨pl, some p⟩)) (σ (φ ⟨p, none⟩)))) with e | v <;> rfl

theorem draws_annealOn (hb : Cycles T beta b) (hscore : ∀ x t, o.score x t = (.ok (σ (φ x)), t)) (y : PlanState V P × ℕ) : Draws 1 (annealOn N o beta mag y) := by
  rcases hy : y.1.parent with _ | p
  · refine .done (.ok true) (fun t => ?_)
    rw [annealOn_eq hb hscore, hy]
  · rcases he : mathExp (-(b (y.2 % T) * mag * worsening o.maximize (σ (φ y.1)) (σ (φ ⟨p, none⟩)))) with e | v
    · refine .draw (fun _ t => (.error e, t)) (fun t => ?_) (fun i => .done _ (fun t => rfl))
      rw [annealOn_eq hb hscore, hy]
      dsimp only
      rw [he]
    · refine .draw (fun i t => (.ok (decide (((((i % N : ℕ) : ℚ) / (N : ℚ) : ℚ) : ℝ) < v)), t)) (fun t => ?_) (fun i => .done _ (fun t => rfl))
      rw [annealOn_eq hb hscore, hy]
      dsimp only
      rw [he]

theorem annealOn_accepts (hN : 0 < N) (hb : Cycles T beta b) (hscore : ∀ x t, o.score x t = (.ok (σ (φ x)), t)) {y : PlanState V P × ℕ} {p : Assignment V P}
    (hy : y.1.parent = some p) (k : ℕ) (hover : Real.exp (-(b (y.2 % T) * mag * worsening o.maximize (σ (φ y.1)) (σ (φ ⟨p, none⟩)))) < 2 ^ 1024) :
    AcceptsWith N 1 (annealOn N o beta mag y) (annealChance N b mag σ o.maximize (φ ⟨p, none⟩, k) (φ y.1, y.2 % T)) := by
  have e : ∀ t, annealOn N o beta mag y t = (.ok (decide (((((t.headD 0 % N : ℕ) : ℚ) / (N : ℚ) : ℚ) : ℝ) <
      Real.exp (-(b (y.2 % T) * mag * worsening o.maximize (σ (φ y.1)) (σ (φ ⟨p, none⟩)))))), t.tail) := by
    intro t
    rw [annealOn_eq hb hscore, hy]
    dsimp only
    unfold mathExp
    rw [if_neg (not_le.2 hover)]
  refine ⟨fun t => ⟨_, by rw [e]⟩, ?_⟩
  intro L hL
  obtain ⟨L, rfl⟩ : ∃ k, L = k + 1 := ⟨L - 1, by omega⟩
  rw [avg_succ]
  unfold annealChance
  rw [Finset.card_filter]
  push_cast
  congr 1
  refine Finset.sum_congr rfl (fun i hi => ?_)
  refine Eq.trans (avg_congr N L (fun t => ?_)) (avg_const hN L _)
  refine if_congr ?_ rfl rfl
  rw [e]
  show Except.ok (decide (((((i % N : ℕ) : ℚ) / (N : ℚ) : ℚ) : ℝ) < _)) = Except.ok true ↔ _
  rw [Nat.mod_eq_of_lt (Finset.mem_range.1 hi), Except.ok.injEq, decide_eq_true_iff]
  push_cast
  rfl

end accept

/-! ### The law of the annealed runs -/

section law
variable {α : Type} [DecidableEq α] {N d T : ℕ} {o : OptCfg Tape (PlanState V P) ℝ} {Good : PlanState V P → Prop} {φ : PlanState V P → α} {S : Finset α} {B K : α → α → ℚ}
  {ρ : α → ℚ} {σ : α → ℝ} {beta : ℤ → Py ℝ} {b : ℕ → ℝ} {mag : ℝ}

theorem annealChance_isChance {S' : Finset (α × ℕ)} (hN : 0 < N) (mx : Bool) : IsChance S' (annealChance N b mag σ mx) := by
  intro x _ y _
  have hN' : (0 : ℚ) < N := by exact_mod_cast hN
  unfold annealChance
  refine ⟨by positivity, ?_⟩
  rw [div_le_one hN']
  have := Finset.card_filter_le (Finset.range N) (fun i : ℕ => (((i : ℚ) / (N : ℚ) : ℚ) : ℝ) < Real.exp (-(b y.2 * mag * worsening mx (σ y.1) (σ x.1))))
  rw [Finset.card_range] at this
  exact_mod_cast this

/-- every step has a chance: 0 is one of the random numbers -/
theorem annealChance_pos (hN : 0 < N) (mx : Bool) (x y : α × ℕ) : 0 < annealChance N b mag σ mx x y := by
  have hN' : (0 : ℚ) < N := by exact_mod_cast hN
  unfold annealChance
  refine div_pos ?_ hN'
  have : 0 < ((Finset.range N).filter (fun i : ℕ => (((i : ℚ) / (N : ℚ) : ℚ) : ℝ) < Real.exp (-(b y.2 * mag * worsening mx (σ y.1) (σ x.1))))).card := by
    refine Finset.card_pos.2 ⟨0, Finset.mem_filter.2 ⟨Finset.mem_range.2 hN, ?_⟩⟩
    simpa using Real.exp_pos _
  exact_mod_cast this

/-- the law of an optimizer with the annealing acceptance function -/
theorem OptLaw.annealed (h : OptLaw N d o alwaysAccept Good φ S B ρ σ) (hN : 0 < N) (hb : Cycles T beta b) (hover : NoOverflow S T b mag σ o.maximize)
    (hscore : ∀ x t, o.score x t = (.ok (σ (φ x)), t)) (hφ : ∀ x, φ ⟨x.plan, none⟩ = φ x) (herase : ∀ x t, o.erase x t = t)
    (hpar : ∀ x t y, (o.proposal x t).1 = .ok y → y.parent = some x.plan) :
    OptLaw N (d + 1) o.timed (annealOn N o beta mag) (fun x => Good x.1) (fun x => (φ x.1, x.2 % T)) (clockSet S T)
      (tiltRate (clockSet S T) (clockRate T B) (annealChance N b mag σ o.maximize)) (fun m => ρ m.1) (fun m => σ m.1) where
  tries := by
    intro x steps
    have ht := (h.timed hN (fun _ _ => rfl) hb.1).tries x steps
    refine ht.tilt hN (fun _ _ => rfl) rfl (fun z t => herase z.1 t) (fun y => draws_annealOn hb hscore y) ?_
    intro z hz t y hy
    have hgood := ht.good z hz t y hy
    have hprop := oneTry_proposed (fun _ _ => rfl) hy
    have hq : y.1.parent = some z.1.plan := by
      change (M.bind (o.proposal z.1) _ t).1 = _ at hprop
      unfold M.bind at hprop
      rcases hm : o.proposal z.1 t with ⟨_ | q, s⟩ <;> rw [hm] at hprop
      · cases hprop
      · cases hprop
        exact hpar z.1 t q (by rw [hm])
    have := annealOn_accepts (φ := φ) (σ := σ) (o := o) (mag := mag) hN hb hscore hq (z.2 % T) (by
      rw [hφ]
      exact hover _ (Nat.mod_lt _ hb.1) _ ((h.tries z.1 0).mem _ hz) _ ((h.tries z.1 0).mem _ hgood))
    rwa [hφ] at this
  score := (h.timed hN (fun _ _ => rfl) hb.1).score
  consumer := (h.timed hN (fun _ _ => rfl) hb.1).consumer
  valid := (h.timed hN (fun _ _ => rfl) hb.1).valid

theorem clockRate_le {B' : α → α → ℚ} (h : ∀ x ∈ S, ∀ y ∈ S, B x y ≤ B' x y) : ∀ x ∈ clockSet S T, ∀ y ∈ clockSet S T, clockRate T B x y ≤ clockRate T B' x y := by
  intro x hx y hy
  unfold clockRate
  split_ifs
  · exact h _ (clock_mem.1 hx).1 _ (clock_mem.1 hy).1
  · exact le_rfl

/-- the Markov chain of plans and clock: a step of the chain of plans, taken with the probability of the acceptance function; the clock counts the steps taken -/
noncomputable def annealKernel (S : Finset α) (K : α → α → ℚ) (N T : ℕ) (b : ℕ → ℝ) (mag : ℝ) (σ : α → ℝ) (mx : Bool) : α × ℕ → α × ℕ → ℚ :=
  tiltRate (clockSet S T) (clockRate T K) (annealChance N b mag σ mx)

/-- the probability that an annealed run ends with a best plan in `X`, compared with the Markov chain -/
theorem anneal_bounds (h : OptLaw N d o alwaysAccept Good φ S B ρ σ) (hN : 0 < N) (hb : Cycles T beta b) (hover : NoOverflow S T b mag σ o.maximize)
    (hscore : ∀ x t, o.score x t = (.ok (σ (φ x)), t)) (hφ : ∀ x, φ ⟨x.plan, none⟩ = φ x) (herase : ∀ x t, o.erase x t = t)
    (hpar : ∀ x t y, (o.proposal x t).1 = .ok y → y.parent = some x.plan) (hinit : Good o.initial)
    (X : (PlanState V P × ℕ) × ℝ → Prop) [DecidablePred X] (X' : α × ℕ → Prop) [DecidablePred X']
    (hX : ∀ q : (PlanState V P × ℕ) × ℝ, Good q.1.1 → q.2 = σ (φ q.1.1) → (X q ↔ X' (φ q.1.1, q.1.2 % T)))
    {f : ℕ} (hf : 0 < f) {c : ℚ} (hc : 0 ≤ c) (h0 : ∀ x ∈ S, ∀ y ∈ S, 0 ≤ triedKernel B ρ f x y) (hle : ∀ x ∈ S, ∀ y ∈ S, triedKernel B ρ f x y ≤ K x y)
    (hge : ∀ x ∈ S, ∀ y ∈ S, c * K x y ≤ triedKernel B ρ f x y) (n body : ℕ) (hbody : n + 1 < body) (L : ℕ) (hL : n * (f * (d + 1)) ≤ L) :
    avg N L (fun t => endsWith X (o.timed.singleRun (annealOn N o beta mag) (n + 1 : ℕ) f body t)) ≤
      burstsMean (clockSet S T) (annealKernel S K N T b mag σ o.maximize) n (fun m => σ m.1) o.maximize 1 (isIn X') (φ o.initial, 0) ∧
    c ^ n * burstsMean (clockSet S T) (annealKernel S K N T b mag σ o.maximize) n (fun m => σ m.1) o.maximize 1 (isIn X') (φ o.initial, 0) ≤
      avg N L (fun t => endsWith X (o.timed.singleRun (annealOn N o beta mag) (n + 1 : ℕ) f body t)) := by
  have hl := h.annealed hN hb hover hscore hφ herase hpar
  have hw : IsChance (clockSet S T) (annealChance N b mag σ o.maximize) := annealChance_isChance hN _
  have h0' : ∀ x ∈ clockSet S T, ∀ y ∈ clockSet S T, 0 ≤ clockRate T (triedKernel B ρ f) x y := by
    intro x hx y hy
    unfold clockRate
    split_ifs
    · exact h0 _ (clock_mem.1 hx).1 _ (clock_mem.1 hy).1
    · exact le_rfl
  rw [hl.single_run hN f hf hinit X X' hX n body hbody L hL, triedKernel_tilt, triedKernel_clock]
  have e0 : (φ o.timed.initial.1, o.timed.initial.2 % T) = (φ o.initial, 0) := by
    show (φ o.initial, 0 % T) = _
    rw [Nat.zero_mod]
  rw [e0]
  have := (burstsMean_dominated (S := clockSet S T) (σ := fun m : α × ℕ => σ m.1) (mx := o.maximize) hc (fun x hx y hy => tiltRate_nonneg hw h0' hx hy)
    (fun x hx y hy => tiltRate_mono hw (clockRate_le hle) hx hy)
    (fun x hx y hy => ?_) n (ψ := isIn X') (fun m _ => isIn_nonneg m) 1 (φ o.initial, 0) (clock_mem.2 ⟨(h.tries o.initial 0).mem _ hinit, hb.1⟩)).2
  · rw [pow_one] at this
    exact this
  · rw [← tiltRate_smul]
    refine tiltRate_mono hw (fun u hu v hv => ?_) hx hy
    unfold clockRate
    split_ifs
    · exact hge _ (clock_mem.1 hu).1 _ (clock_mem.1 hv).1
    · exact (mul_zero c).le

/-- a long annealed chain finds an optimal plan -/
theorem anneal_find (hK : IsKernel S K) (hN : 0 < N) (hT : 0 < T) (mx : Bool) (hirr : ∀ x ∈ S, ∀ y ∈ S, Relation.ReflTransGen (PosStep S K) x y) {x0 : α} (hx0 : x0 ∈ S) :
    ∀ δ : ℚ, 0 < δ → ∃ n0 : ℕ, ∀ n, n0 ≤ n →
      1 - δ ≤ burstsMean (clockSet S T) (annealKernel S K N T b mag σ mx) n (fun m => σ m.1) mx 1 (isIn (IsOptimal (clockSet S T) (fun m => σ m.1) mx)) (x0, 0) :=
  clock_find hK hT (annealChance_isChance hN mx) (fun x y _ => annealChance_pos hN mx x y) hirr (exists_optimal ⟨x0, hx0⟩ σ mx) hx0

end law

/-- the best score is optimal -/
def FoundBestScore {α : Type} (S : Finset α) (σ : α → ℝ) (mx : Bool) (q : (PlanState V P × ℕ) × ℝ) : Prop := ∀ m ∈ S, isImprovement mx q.2 (σ m) = true

noncomputable instance {α : Type} (S : Finset α) (σ : α → ℝ) (mx : Bool) : DecidablePred (FoundBestScore (V := V) (P := P) S σ mx) := fun q => by
  unfold FoundBestScore; infer_instance

/-! ### Flips -/

section flips
variable [DecidableEq (V → Option P)] {G : Graph V} {W : (V → Option P) → Bool} {a : Assignment V P} {S : Finset (V → Option P)} {N d T : ℕ}
  {prop : PlanState V P → M Tape (PlanState V P)} {cs : List (Constraint Tape (PlanState V P))} {r : (V → Option P) → V → ℚ} {u : (V → Option P) → ℚ}
  {σ : (V → Option P) → ℝ} {mx : Bool} {beta : ℤ → Py ℝ} {b : ℕ → ℝ} {mag : ℝ}

/-- The probability that `simulated_annealing(n + 1, beta, mag)` with at most `f` proposals in each step ends without an exception and with a best plan and score that satisfy `X`
(optimization/optimization.py:427-473). -/
noncomputable def annealedRun (N L : ℕ) (prop : PlanState V P → M Tape (PlanState V P)) (cs : List (Constraint Tape (PlanState V P))) (a : Assignment V P)
    (σ : (V → Option P) → ℝ) (mx : Bool) (beta : ℤ → Py ℝ) (mag : ℝ) (n f body : ℕ) (X : (PlanState V P × ℕ) × ℝ → Prop) [DecidablePred X] : ℚ :=
  avg N L (fun t => endsWith X ((flipOptimizer prop cs a σ mx).timed.singleRun (annealOn N (flipOptimizer prop cs a σ mx) beta mag) (n + 1 : ℕ) f body t))

theorem flip_annealed (hs : FlipSetting G W a S) (hr : Rates G W S r) (hcs : Decides W cs) (hN : 0 < N) (hb : Cycles T beta b) (hover : NoOverflow S T b mag σ mx)
    (hu : ∀ m ∈ S, 0 < u m) (hlaw : ∀ x : PlanState V P, InClass G S x → FlipLaw N d G prop x (u x.plan.mapping.get?) (r x.plan.mapping.get?))
    (hpar : ∀ x t y, (prop x t).1 = .ok y → y.parent = some x.plan)
    {c : ℚ} (hc0 : 0 ≤ c) (hc : ∀ m ∈ S, 1 - u m * flipWeight G W r m ≤ c) (hc1 : c < 1) (X : (PlanState V P × ℕ) × ℝ → Prop) [DecidablePred X]
    (X' : (V → Option P) × ℕ → Prop) [DecidablePred X']
    (hX : ∀ q : (PlanState V P × ℕ) × ℝ, InClass G S q.1.1 → q.2 = σ q.1.1.plan.mapping.get? → (X q ↔ X' (q.1.1.plan.mapping.get?, q.1.2 % T)))
    (n f body L : ℕ) (hf : 0 < f) (hbody : n + 1 < body) (hL : n * (f * (d + 1)) ≤ L) :
    annealedRun N L prop cs a σ mx beta mag n f body X ≤
      burstsMean (clockSet S T) (annealKernel S (flipKernel G W r) N T b mag σ mx) n (fun m => σ m.1) mx 1 (isIn X') (a.mapping.get?, 0) ∧
    (1 - c ^ f) ^ n * burstsMean (clockSet S T) (annealKernel S (flipKernel G W r) N T b mag σ mx) n (fun m => σ m.1) mx 1 (isIn X') (a.mapping.get?, 0) ≤
      annealedRun N L prop cs a σ mx beta mag n f body X := by
  have hpow1 : c ^ f ≤ 1 := pow_le_one₀ hc0 hc1.le
  exact anneal_bounds (optLaw_flips hs hcs hN hlaw σ mx) hN hb hover (fun _ _ => rfl) (fun _ => rfl) (fun _ _ => rfl) hpar ⟨hs.coherent, hs.covers, hs.initial⟩ X X' hX hf
    (by linarith) (fun m hm m' hm' => (flips_dominated hs hr hcs hN hu hlaw hc hc1 f hm hm').1)
    (fun m hm m' hm' => (flips_dominated hs hr hcs hN hu hlaw hc hc1 f hm hm').2.1) (fun m hm m' hm' => (flips_dominated hs hr hcs hN hu hlaw hc hc1 f hm hm').2.2) n body hbody L hL

theorem flip_annealed_find (hs : FlipSetting G W a S) (hr : Rates G W S r) (hN : 0 < N) (hb : Cycles T beta b) (hover : NoOverflow S T b mag σ mx)
    (hu : ∀ m ∈ S, 0 < u m) (hlaw : ∀ x : PlanState V P, InClass G S x → FlipLaw N d G prop x (u x.plan.mapping.get?) (r x.plan.mapping.get?))
    (hpar : ∀ x t y, (prop x t).1 = .ok y → y.parent = some x.plan) {δ : ℚ} (hδ : 0 < δ) :
    ∃ n0 : ℕ, ∀ n, n0 ≤ n → ∃ f0 : ℕ, ∀ f, f0 ≤ f → ∀ cs, Decides W cs → ∀ body L, n + 1 < body → n * (f * (d + 1)) ≤ L →
      1 - δ ≤ annealedRun N L prop cs a σ mx beta mag n f body (FoundBestScore S σ mx) := by
  obtain ⟨c, hc0, hc1, hc⟩ := exists_refusal_bound hs hr hu
  have hδ' : 0 < min (δ / 2) 1 := lt_min (by linarith) one_pos
  have hirr : ∀ x ∈ S, ∀ y ∈ S, Relation.ReflTransGen (PosStep S (flipKernel G W r)) x y := by
    intro x hx y hy
    have h := flip_irr hs x hx y hy
    clear hy
    induction h with
    | refl => exact .refl
    | tail _ h ih => exact ih.tail ((flip_rel hs hr _ (reached_mem hx ih) _).2 h)
  obtain ⟨n0, h2⟩ := anneal_find (σ := σ) (b := b) (mag := mag) (flipKernel_isKernel hs hr) hN hb.1 mx hirr hs.initial _ hδ'
  refine ⟨n0, fun n hn => ?_⟩
  obtain ⟨f0, hf0⟩ := enough_tries hc0 hc1 n hδ'
  refine ⟨f0 + 1, fun f hf cs hcs body L hbody hL => (close_mul hδ (h2 n hn) (hf0 f (by omega))).trans
    (flip_annealed hs hr hcs hN hb hover hu hlaw hpar hc0 hc hc1 _ _ (fun q _ hq => ?_) n f body L (by omega) hbody hL).2⟩
  rw [clock_optimal hb.1]
  unfold FoundBestScore IsOptimal
  rw [hq]

end flips

section slow
variable (G : Graph V) (W : (V → Option P) → Bool) (a : Assignment V P) (S : Finset (V → Option P)) (σ : (V → Option P) → ℝ) (mx : Bool) [DecidableEq (V → Option P)]
  {beta : ℤ → Py ℝ} {b : ℕ → ℝ} {mag : ℝ} {T : ℕ}

/-- **C118** (the law, `slow_reversible_propose`) With a schedule that repeats itself after `T` moves, and at most `f` proposals in each step, the probability that
`simulated_annealing(n + 1, beta, mag)` ends without an exception and with a best plan in `X` is at most that of the Markov chain of plans and number of moves, in which a plan one
allowed move away is drawn, all equally likely, and is taken with the probability that `random.random()` is less than `exp(-beta * mag * delta)`, where `beta` is taken at the number
of moves including this one; and at least `(1 - c ^ f) ^ n` times it.  A move that is not taken does not count for the schedule. -/
theorem C118_slow_law (hs : FlipSetting G W a S) (hb : Cycles T beta b) (hover : NoOverflow S T b mag σ mx) :
    ∃ c : ℚ, 0 ≤ c ∧ c < 1 ∧ ∀ N, 0 < N → (∀ m ∈ S, (allowedMoves G m (fun _ => true)).card ∣ N) → ∀ cs, Decides W cs →
      ∀ (X : (V → Option P) → Prop) [DecidablePred X] (n f body L : ℕ), 0 < f → n + 1 < body → n * (f * 2) ≤ L →
        annealedRun N L (slowMove N G) cs a σ mx beta mag n f body (fun q => X q.1.1.plan.mapping.get?) ≤
          burstsMean (clockSet S T) (annealKernel S (flipKernel G W (fun _ _ => 1)) N T b mag σ mx) n (fun m => σ m.1) mx 1 (isIn (fun m => X m.1)) (a.mapping.get?, 0) ∧
        (1 - c ^ f) ^ n *
            burstsMean (clockSet S T) (annealKernel S (flipKernel G W (fun _ _ => 1)) N T b mag σ mx) n (fun m => σ m.1) mx 1 (isIn (fun m => X m.1)) (a.mapping.get?, 0) ≤
          annealedRun N L (slowMove N G) cs a σ mx beta mag n f body (fun q => X q.1.1.plan.mapping.get?) := by
  obtain ⟨c, hc0, hc1, hc⟩ := exists_refusal_bound hs slow_rates (slow_pos hs)
  refine ⟨c, hc0, hc1, ?_⟩
  intro N hN hd cs hcs X _ n f body L hf hbody hL
  exact flip_annealed hs slow_rates hcs hN hb hover (slow_pos hs) (fun x hx => slow_flipLaw hs hN hd hx) (fun x t y h => flip_parent h) hc0 hc hc1 _ (fun m => X m.1)
    (fun _ _ _ => Iff.rfl) n f body L hf hbody hL

/-- **C118** (`slow_reversible_propose`) With enough steps, then enough proposals in each step, `simulated_annealing` with a schedule that repeats itself finds an optimal score with
a probability as close to 1 as wanted, whatever the score and the values of the schedule, if `math.exp` does not overflow. -/
theorem C118_slow_find (hs : FlipSetting G W a S) (hb : Cycles T beta b) (hover : NoOverflow S T b mag σ mx) (N : ℕ) (hN : 0 < N)
    (hd : ∀ m ∈ S, (allowedMoves G m (fun _ => true)).card ∣ N) (δ : ℚ) (hδ : 0 < δ) :
    ∃ n0 : ℕ, ∀ n, n0 ≤ n → ∃ f0 : ℕ, ∀ f, f0 ≤ f → ∀ cs, Decides W cs → ∀ body L, n + 1 < body → n * (f * 2) ≤ L →
      1 - δ ≤ annealedRun N L (slowMove N G) cs a σ mx beta mag n f body (FoundBestScore S σ mx) :=
  flip_annealed_find (d := 1) hs slow_rates hN hb hover (slow_pos hs) (fun _ hx => slow_flipLaw hs hN hd hx) (fun _ _ _ h => flip_parent h) hδ

/-- **C118** (the law, `slow_reversible_propose_bi`) -/
theorem C118_bi_law (hs : FlipSetting G W a S) (han : ∀ m ∈ S, Anchored G m) (hb : Cycles T beta b) (hover : NoOverflow S T b mag σ mx) :
    ∃ c : ℚ, 0 ≤ c ∧ c < 1 ∧ ∀ N, 0 < N → (∀ m ∈ S, Divides N G m) → ∀ cs, Decides W cs →
      ∀ (X : (V → Option P) → Prop) [DecidablePred X] (n f body L : ℕ), 0 < f → n + 1 < body → n * (f * 3) ≤ L →
        annealedRun N L (biMove N G) cs a σ mx beta mag n f body (fun q => X q.1.1.plan.mapping.get?) ≤
          burstsMean (clockSet S T) (annealKernel S (flipKernel G W (biRate G)) N T b mag σ mx) n (fun m => σ m.1) mx 1 (isIn (fun m => X m.1)) (a.mapping.get?, 0) ∧
        (1 - c ^ f) ^ n *
            burstsMean (clockSet S T) (annealKernel S (flipKernel G W (biRate G)) N T b mag σ mx) n (fun m => σ m.1) mx 1 (isIn (fun m => X m.1)) (a.mapping.get?, 0) ≤
          annealedRun N L (biMove N G) cs a σ mx beta mag n f body (fun q => X q.1.1.plan.mapping.get?) := by
  obtain ⟨c, hc0, hc1, hc⟩ := exists_refusal_bound hs (bi_rates hs) (bi_pos hs)
  refine ⟨c, hc0, hc1, ?_⟩
  intro N hN hd cs hcs X _ n f body L hf hbody hL
  exact flip_annealed hs (bi_rates hs) hcs hN hb hover (bi_pos hs) (fun x hx => bi_flipLaw hs hN hd han hx) (fun x t y h => flip_parent h) hc0 hc hc1 _ (fun m => X m.1)
    (fun _ _ _ => Iff.rfl) n f body L hf hbody hL

/-- **C118** (`slow_reversible_propose_bi`) -/
theorem C118_bi_find (hs : FlipSetting G W a S) (han : ∀ m ∈ S, Anchored G m) (hb : Cycles T beta b) (hover : NoOverflow S T b mag σ mx) (N : ℕ) (hN : 0 < N)
    (hd : ∀ m ∈ S, Divides N G m) (δ : ℚ) (hδ : 0 < δ) :
    ∃ n0 : ℕ, ∀ n, n0 ≤ n → ∃ f0 : ℕ, ∀ f, f0 ≤ f → ∀ cs, Decides W cs → ∀ body L, n + 1 < body → n * (f * 3) ≤ L →
      1 - δ ≤ annealedRun N L (biMove N G) cs a σ mx beta mag n f body (FoundBestScore S σ mx) :=
  flip_annealed_find (d := 2) hs (bi_rates hs) hN hb hover (bi_pos hs) (fun _ hx => bi_flipLaw hs hN hd han hx) (fun _ _ _ h => flip_parent h) hδ

end slow

/-! ### ReCom -/

section recom
variable {N r m d0 fuel k n f body L T : ℕ} {G : Graph V} {pop : V → ℚ} {target eps : ℚ} {span : Graph V → M Tape (WTree V)} {μ : Finset V → Finset (V × V) → ℚ}
  {W : Finset (Finset V) → Bool} {cs : List (Constraint Tape (PlanState V P))} {a : Assignment V P} {σ : Finset (Finset V) → ℝ} {mx : Bool}
  {beta : ℤ → Py ℝ} {b : ℕ → ℝ} {mag : ℝ}

/-- The probability that `simulated_annealing(n + 1, beta, mag)` with `recom` ends without an exception and with a best plan and score that satisfy `X`, with at most `f` proposals in
each step and at most `m` attempts in each proposal (optimization/optimization.py:427-473). -/
noncomputable def recomAnnealed (N L r m : ℕ) (span : Graph V → M Tape (WTree V)) (fuel : ℕ) (G : Graph V) (pop : V → ℚ) (target eps : ℚ)
    (cs : List (Constraint Tape (PlanState V P))) (a : Assignment V P) (σ : Finset (Finset V) → ℝ) (mx : Bool) (beta : ℤ → Py ℝ) (mag : ℝ) (n f body : ℕ)
    (X : (PlanState V P × ℕ) × ℝ → Prop) [DecidablePred X] : ℚ :=
  avg N L (fun t => endsWith X ((recomOptimizer N r m span fuel G pop target eps cs a σ mx).timed.singleRun
    (annealOn N (recomOptimizer N r m span fuel G pop target eps cs a σ mx) beta mag) (n + 1 : ℕ) f body t))

theorem recom_annealed (hs : RecomSetting G pop target eps k) (hμ : TreeChances G μ) (ha : a.Coherent) (hQ0 : IsPlan G pop target eps k a.plan) (hW : W a.plan = true) {c d : ℚ}
    (hbd : RunBounds G pop target eps k μ W a.plan c d) (hrun : RecomRun N d0 r fuel k G pop target eps μ W span cs) (hb : Cycles T beta b)
    (hover : NoOverflow (recomClass G pop target eps k W a.plan) T b mag σ mx)
    (X : (PlanState V P × ℕ) × ℝ → Prop) [DecidablePred X] (X' : Finset (Finset V) × ℕ → Prop) [DecidablePred X']
    (hX : ∀ q : (PlanState V P × ℕ) × ℝ, q.2 = σ q.1.1.plan.plan → (X q ↔ X' (q.1.1.plan.plan, q.1.2 % T))) (m : ℕ) (hf : 0 < f) (hbody : n + 1 < body)
    (hL : n * (f * (recomDraws d0 m G + 1)) ≤ L) :
    recomAnnealed N L r m span fuel G pop target eps cs a σ mx beta mag n f body X ≤
      burstsMean (clockSet (recomClass G pop target eps k W a.plan) T) (annealKernel (recomClass G pop target eps k W a.plan) (keptKernel G pop target eps k μ W) N T b mag σ mx) n
        (fun m => σ m.1) mx 1 (isIn X') (a.plan, 0) ∧
    roundsDone c d r m f ^ n *
        burstsMean (clockSet (recomClass G pop target eps k W a.plan) T) (annealKernel (recomClass G pop target eps k W a.plan) (keptKernel G pop target eps k μ W) N T b mag σ mx) n
          (fun m => σ m.1) mx 1 (isIn X') (a.plan, 0) ≤
      recomAnnealed N L r m span fuel G pop target eps cs a σ mx beta mag n f body X := by
  have hself := recomClass_self (W := W) hQ0
  have hstep := fun Q hQ X hX => step_bounds hs hμ hQ0 hW hbd.c0 hbd.c1 hbd.attempt hbd.refused r m f (Q := Q) (X := X) hQ hX
  exact anneal_bounds (optLaw_recom hs hQ0 hW hrun m a σ mx) hrun.even.1 hb hover (fun _ _ => rfl) (fun _ => rfl) (fun _ _ => rfl) (fun x t y h => flip_parent h) ⟨⟨ha, hQ0⟩, hself⟩
    X X' (fun q _ hq => hX q hq) hf (roundsDone_nonneg hbd.c0 hbd.c1 hbd.d0 hbd.d1 r m f) (fun Q hQ X hX => (hstep Q hQ X hX).1) (fun Q hQ X hX => (hstep Q hQ X hX).2.1)
    (fun Q hQ X hX => (hstep Q hQ X hX).2.2) n body hbody L hL

/-- **C118** (the law, `recom`) The same as `C118_slow_law`, with the chain of `recom`. -/
theorem C118_recom_law (hs : RecomSetting G pop target eps k) (hμ : TreeChances G μ) (ha : a.Coherent) (hQ0 : IsPlan G pop target eps k a.plan) (hW : W a.plan = true)
    (hb : Cycles T beta b) (hover : NoOverflow (recomClass G pop target eps k W a.plan) T b mag σ mx) :
    ∃ c d : ℚ, 0 ≤ c ∧ c < 1 ∧ 0 ≤ d ∧ d < 1 ∧ ∀ (N d0 r fuel : ℕ) (span : Graph V → M Tape (WTree V)) (cs : List (Constraint Tape (PlanState V P))),
      RecomRun N d0 r fuel k G pop target eps μ W span cs → ∀ (X : Finset (Finset V) → Prop) [DecidablePred X] (n m f body L : ℕ), 0 < f → n + 1 < body →
      n * (f * (recomDraws d0 m G + 1)) ≤ L →
        recomAnnealed N L r m span fuel G pop target eps cs a σ mx beta mag n f body (fun q => X q.1.1.plan.plan) ≤
          burstsMean (clockSet (recomClass G pop target eps k W a.plan) T)
            (annealKernel (recomClass G pop target eps k W a.plan) (keptKernel G pop target eps k μ W) N T b mag σ mx) n (fun m => σ m.1) mx 1 (isIn (fun m => X m.1)) (a.plan, 0) ∧
        roundsDone c d r m f ^ n *
            burstsMean (clockSet (recomClass G pop target eps k W a.plan) T)
              (annealKernel (recomClass G pop target eps k W a.plan) (keptKernel G pop target eps k μ W) N T b mag σ mx) n (fun m => σ m.1) mx 1 (isIn (fun m => X m.1)) (a.plan, 0) ≤
          recomAnnealed N L r m span fuel G pop target eps cs a σ mx beta mag n f body (fun q => X q.1.1.plan.plan) := by
  obtain ⟨c, d, hbd⟩ := exists_runBounds hs hμ hQ0 hW
  refine ⟨c, d, hbd.c0, hbd.c1, hbd.d0, hbd.d1, ?_⟩
  intro N d0 r fuel span cs hrun X _ n m f body L hf hbody hL
  exact recom_annealed hs hμ ha hQ0 hW hbd hrun hb hover _ (fun m => X m.1) (fun _ _ => Iff.rfl) m hf hbody hL

/-- **C118** (`recom`) The same as `C118_slow_find`, also with enough attempts in each proposal. -/
theorem C118_recom_find (hs : RecomSetting G pop target eps k) (hμ : TreeChances G μ) (ha : a.Coherent) (hQ0 : IsPlan G pop target eps k a.plan) (hW : W a.plan = true)
    (hrun : RecomRun N d0 r fuel k G pop target eps μ W span cs) (hb : Cycles T beta b) (hover : NoOverflow (recomClass G pop target eps k W a.plan) T b mag σ mx)
    (δ : ℚ) (hδ : 0 < δ) :
    ∃ n0, ∀ n, n0 ≤ n → ∃ f0, ∀ f, f0 ≤ f → ∃ m0, ∀ m, m0 ≤ m → ∀ body L, n + 1 < body → n * (f * (recomDraws d0 m G + 1)) ≤ L →
      1 - δ ≤ recomAnnealed N L r m span fuel G pop target eps cs a σ mx beta mag n f body (FoundBestScore (recomClass G pop target eps k W a.plan) σ mx) := by
  obtain ⟨c, d, hbd⟩ := exists_runBounds hs hμ hQ0 hW
  have hself := recomClass_self (W := W) hQ0
  have hδ' : 0 < min (δ / 2) 1 := lt_min (by linarith) one_pos
  have hirr : ∀ x ∈ recomClass G pop target eps k W a.plan, ∀ y ∈ recomClass G pop target eps k W a.plan,
      Relation.ReflTransGen (PosStep (recomClass G pop target eps k W a.plan) (keptKernel G pop target eps k μ W)) x y := by
    intro x hx y hy
    have h := recom_irr hQ0 hW x hx y hy
    clear hy
    induction h with
    | refl => exact .refl
    | tail _ h ih => exact ih.tail ((recom_rel hs hμ hQ0 hW _ (reached_mem hx ih) _).2 h)
  obtain ⟨n0, h2⟩ := anneal_find (σ := σ) (b := b) (mag := mag) (keptKernel_isKernel hs hμ hQ0 hW) hrun.even.1 hb.1 mx hirr hself _ hδ'
  refine ⟨n0, fun n hn => ?_⟩
  obtain ⟨f0, hf0⟩ := enough_rounds hbd.c0 hbd.c1 hbd.d0 hbd.d1 n hδ'
  refine ⟨f0 + 1, fun f hf => ?_⟩
  obtain ⟨m0, hm0⟩ := hf0 f (by omega) r hrun.repeats
  refine ⟨m0, fun m hm body L hbody hL => (close_mul hδ (h2 n hn) (hm0 m hm)).trans
    (recom_annealed hs hμ ha hQ0 hW hbd hrun hb hover _ _ (fun q hq => ?_) m (by omega) hbody hL).2⟩
  rw [clock_optimal hb.1]
  unfold FoundBestScore IsOptimal
  rw [hq]

end recom

/-! ### The schedules of the library -/

/-- a schedule of the library, with its values as real numbers -/
def realSchedule (beta : ℤ → Py ℚ) (t : ℤ) : Py ℝ :=
  match beta t with
  | .ok q => .ok (q : ℝ)
  | .error e => .error e

/-- **C118** (`jumpcycle_beta_function`, optimization/optimization.py:186-209) repeats itself -/
theorem C118_jumpcycle (hot cold : ℕ) (h : hot + cold ≠ 0) :
    Cycles (hot + cold) (realSchedule (jumpcycleBeta hot cold)) (fun k => if k < hot then 0 else 1) := by
  refine ⟨Nat.pos_of_ne_zero h, fun t => ?_⟩
  unfold realSchedule
  rw [C48_jumpcycle_value hot cold h t]
  dsimp only
  have : ((t : ℤ) % ((hot + cold : ℕ) : ℤ) < (hot : ℤ)) ↔ t % (hot + cold) < hot := by
    rw [← Int.natCast_mod]
    exact Int.ofNat_lt
  by_cases h1 : t % (hot + cold) < hot
  · rw [if_pos (this.2 h1), if_pos h1]; simp
  · rw [if_neg (fun h => h1 (this.1 h)), if_neg h1]; simp

/-- **C118** (`linearcycle_beta_function`) repeats itself -/
theorem C118_linearcycle (hot cool cold : ℕ) (h : hot + 2 * cool + cold ≠ 0) :
    Cycles (hot + 2 * cool + cold) (realSchedule (linearcycleBeta hot cool cold)) (fun k => ((linearcycleValue hot cool cold (k : ℤ) : ℚ) : ℝ)) := by
  refine ⟨Nat.pos_of_ne_zero h, fun t => ?_⟩
  unfold realSchedule
  rw [C48_linearcycle_value hot cool cold h t]
  dsimp only
  rw [Int.natCast_mod]

/-- **C118** (`linear_jumpcycle_beta_function`) repeats itself -/
theorem C118_linear_jumpcycle (hot cool cold : ℕ) (h : hot + cool + cold ≠ 0) :
    Cycles (hot + cool + cold) (realSchedule (linearJumpcycleBeta hot cool cold)) (fun k => ((linearJumpValue hot cool (k : ℤ) : ℚ) : ℝ)) := by
  refine ⟨Nat.pos_of_ne_zero h, fun t => ?_⟩
  unfold realSchedule
  rw [C48_linear_jumpcycle_value hot cool cold h t]
  dsimp only
  rw [Int.natCast_mod]

/-- **C118** (overflow) The condition is needed: a move that makes the score better by 1024 units of `1 / (beta * magnitude)` or more makes `math.exp` overflow: the run ends with an `OverflowError`
instead of accepting the move. -/
theorem C118_overflow {N : ℕ} {o : OptCfg Tape (PlanState V P) ℝ} {α : Type} {φ : PlanState V P → α} {σ : α → ℝ} {beta : ℤ → Py ℝ} {b : ℕ → ℝ} {mag : ℝ} {T : ℕ}
    (hb : Cycles T beta b) (hscore : ∀ x t, o.score x t = (.ok (σ (φ x)), t)) (y : PlanState V P × ℕ) (p : Assignment V P) (hy : y.1.parent = some p)
    (hlarge : b (y.2 % T) * mag * worsening o.maximize (σ (φ y.1)) (σ (φ ⟨p, none⟩)) ≤ -1024) (t : Tape) :
    (annealOn N o beta mag y t).1 = .error .overflowError := by
  rw [annealOn_eq hb hscore, hy]
  dsimp only
  unfold mathExp
  have h2 : (2 : ℝ) ^ 1024 ≤ Real.exp (-(b (y.2 % T) * mag * worsening o.maximize (σ (φ y.1)) (σ (φ ⟨p, none⟩)))) := by
    have h1 : (2 : ℝ) ≤ Real.exp 1 := by
      have := Real.add_one_le_exp (1 : ℝ)
      linarith
    calc (2 : ℝ) ^ 1024 ≤ Real.exp 1 ^ 1024 := pow_le_pow_left₀ (by norm_num) h1 _
      _ = Real.exp 1024 := by rw [← Real.exp_nat_mul]; norm_num
      _ ≤ _ := Real.exp_le_exp.2 (by linarith)
  rw [if_pos h2]

/-! ### Examples -/

/-- no overflow if the scores are between 0 and 2 and the schedule between 0 and 1 -/
theorem small_noOverflow {α : Type} {S : Finset α} {T : ℕ} {b : ℕ → ℝ} {σ : α → ℝ} {mx : Bool} (hb : ∀ k, 0 ≤ b k ∧ b k ≤ 1) (hσ : ∀ x, 0 ≤ σ x ∧ σ x ≤ 2) :
    NoOverflow S T b 1 σ mx := by
  intro k _ x _ y _
  have h1 : -(b k * 1 * worsening mx (σ y) (σ x)) ≤ 2 := by
    have hx := hσ x
    have hy := hσ y
    have hk := hb k
    unfold worsening
    split_ifs <;> nlinarith
  refine lt_of_le_of_lt (Real.exp_le_exp.2 h1) ?_
  have h3 : Real.exp 1 ≤ 3 := Real.exp_one_lt_three.le
  have h4 : Real.exp 2 = Real.exp 1 * Real.exp 1 := by rw [← Real.exp_add]; norm_num
  have h5 : Real.exp 2 ≤ 9 := by
    rw [h4]
    nlinarith [Real.exp_pos 1]
  have h6 : (2 : ℝ) ^ 4 ≤ 2 ^ 1024 := pow_le_pow_right₀ (by norm_num) (by norm_num)
  have h7 : (9 : ℝ) < 2 ^ 4 := by norm_num
  exact lt_of_le_of_lt h5 (lt_of_lt_of_le h7 h6)

/-- on the path of four nodes with the two peaks `0111` and `0001`, two hot moves and three cold ones in turn find the higher one -/
example (δ : ℚ) (hδ : 0 < δ) : ∃ n0 : ℕ, ∀ n, n0 ≤ n → ∃ f0 : ℕ, ∀ f, f0 ≤ f →
    1 - δ ≤ annealedRun 2 (n * (f * 2)) (slowMove 2 walkPath) (chainAt walkA noneEmpty).isValid walkA (fun m => (twoPeaks m : ℝ)) true (realSchedule (jumpcycleBeta (2 : ℕ) (3 : ℕ))) 1
      n f (n + 2) (FoundBestScore walkPlans (fun m => (twoPeaks m : ℝ)) true) := by
  have hσ : ∀ m, (0 : ℝ) ≤ (twoPeaks m : ℝ) ∧ (twoPeaks m : ℝ) ≤ 2 := fun m => by
    have : twoPeaks m ≤ 2 := by unfold twoPeaks; split <;> omega
    exact ⟨Nat.cast_nonneg _, by exact_mod_cast this⟩
  obtain ⟨n0, h⟩ := C118_slow_find walkPath noneEmpty walkA walkPlans (fun m => (twoPeaks m : ℝ)) true walk_fromA (C118_jumpcycle 2 3 (by decide))
    (small_noOverflow (fun k => by split_ifs <;> norm_num) hσ) 2 (by decide) (by decide +kernel) δ hδ
  refine ⟨n0, fun n hn => ?_⟩
  obtain ⟨f0, hf0⟩ := h n hn
  exact ⟨f0, fun f hf => hf0 f hf _ (chainAt_decides walkA noneEmpty) _ _ (by omega) le_rfl⟩

/-- on the path of five nodes with the plans `00111` and `00011` -/
example (δ : ℚ) (hδ : 0 < δ) : ∃ n0 : ℕ, ∀ n, n0 ≤ n → ∃ f0 : ℕ, ∀ f, f0 ≤ f →
    1 - δ ≤ annealedRun 2 (n * (f * 3)) (biMove 2 biPath) (chainAt biC twoEach).isValid biC (fun m => if m = biD.mapping.get? then 1 else 0) true
      (realSchedule (jumpcycleBeta (2 : ℕ) (3 : ℕ))) 1 n f (n + 2) (FoundBestScore {biC.mapping.get?, biD.mapping.get?} (fun m => if m = biD.mapping.get? then 1 else 0) true) := by
  obtain ⟨n0, h⟩ := C118_bi_find biPath twoEach biC _ (fun m => if m = biD.mapping.get? then 1 else 0) true bi_flipSetting (by unfold Anchored; decide +kernel)
    (C118_jumpcycle 2 3 (by decide)) (small_noOverflow (fun k => by split_ifs <;> norm_num) (fun m => by split_ifs <;> norm_num)) 2 (by decide) bi_divides δ hδ
  refine ⟨n0, fun n hn => ?_⟩
  obtain ⟨f0, hf0⟩ := h n hn
  exact ⟨f0, fun f hf => hf0 f hf _ (chainAt_decides biC twoEach) _ _ (by omega) le_rfl⟩

/-- on the graph of five nodes with two plans, with `recom` -/
example (δ : ℚ) (hδ : 0 < δ) (N : ℕ) (hN : EvenTape kiteGraph N) : ∃ n0, ∀ n, n0 ≤ n → ∃ f0, ∀ f, f0 ≤ f → ∃ m0, ∀ m, m0 ≤ m →
    ∀ L, n * (f * (recomDraws 1 m kiteGraph + 1)) ≤ L →
      1 - δ ≤ recomAnnealed (P := Fin 2) N L 1 m (uniformSpan N) 1 kiteGraph kitePop 3 0 [] kiteA (fun Q => if Q = kiteB.plan then 1 else 0) true
        (realSchedule (jumpcycleBeta (2 : ℕ) (3 : ℕ))) 1 n f (n + 2)
        (FoundBestScore (recomClass kiteGraph kitePop 3 0 2 (fun _ => true) kiteA.plan) (fun Q => if Q = kiteB.plan then 1 else 0) true) := by
  have hrun : RecomRun (P := Fin 2) N 1 1 1 2 kiteGraph kitePop 3 0 (uniformLaw kiteGraph) (fun _ => true) (uniformSpan N) [] :=
    ⟨hN, Nat.one_pos, Nat.one_pos, uniform_treeLaw kite_wf hN.1 hN.2, decides_nil⟩
  obtain ⟨n0, h⟩ := C118_recom_find (mag := 1) (σ := fun Q => if Q = kiteB.plan then 1 else 0) (mx := true) kite_setting (treeChances_uniform kite_wf) kite_setup.1.coherent
    kite_isPlan.1 rfl hrun (C118_jumpcycle 2 3 (by decide)) (small_noOverflow (fun k => by split_ifs <;> norm_num) (fun Q => by split_ifs <;> norm_num)) δ hδ
  refine ⟨n0, fun n hn => ?_⟩
  obtain ⟨f0, hf0⟩ := h n hn
  refine ⟨f0, fun f hf => ?_⟩
  obtain ⟨m0, hm0⟩ := hf0 f hf
  exact ⟨m0, fun m hm L hL => hm0 m hm (n + 2) L (by omega) hL⟩

/-- the first two moves of that schedule: the first is hot and is taken whatever the score -/
example : annealChance 2 (fun k => if k < 2 then 0 else 1) 1 (fun x : ℕ => (x : ℝ)) true (5, 0) (3, 1) = 1 := by
  have : ∀ i ∈ Finset.range 2, (((i : ℚ) / ((2 : ℕ) : ℚ) : ℚ) : ℝ) < Real.exp (-((if (1 : ℕ) < 2 then (0 : ℝ) else 1) * 1 * worsening true ((3 : ℕ) : ℝ) ((5 : ℕ) : ℝ))) := by
    intro i hi
    have hi' : i = 0 ∨ i = 1 := by have := Finset.mem_range.1 hi; omega
    rcases hi' with rfl | rfl <;> norm_num
  unfold annealChance
  rw [Finset.filter_true_of_mem this]
  norm_num

end GC

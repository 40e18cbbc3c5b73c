import Verif.Lemmas.Tilted
import Verif.Props.BurstRuns
import Verif.Props.BurstRecom

/-!
# C113: when tilted runs find the best plan

`SingleMetricOptimizer.tilted_run` and `tilted_short_bursts` (optimization/optimization.py:475-506, 572-607) with the flip proposals `slow_reversible_propose` and
`slow_reversible_propose_bi` and with `recom`.  A proposal with a worse score is accepted with probability `p`; one that is not accepted leaves the plan as it is and is
counted as a step.
-/

set_option linter.unusedSectionVars false
set_option autoImplicit false

namespace GC

variable {V P : Type} [LinearOrder V] [LinearOrder P] {A : Type} [LinearOrder A]

/-- the acceptance function that `tilted_run(num_steps, p)` and `tilted_short_bursts(…, p)` make (optimization/optimization.py:143-153), for plans; `random.random()` is one of
`0, 1/N, …, (N-1)/N` -/
noncomputable def tiltedOn (N : ℕ) (o : OptCfg Tape (PlanState V P) A) (p : ℚ) : PlanState V P → M Tape Bool :=
  tiltedAccept o.maximize (fun x => pure (x.parent.map (fun b => ⟨b, none⟩))) o.score (do let u ← (uniRand N).random; pure (u : ℝ)) (p : ℝ)

/-- the probability that a step from `x` to `y` is accepted -/
def tiltChance {α : Type} (σ : α → A) (mx : Bool) (p : ℚ) (x y : α) : ℚ := if isImprovement mx (σ y) (σ x) then 1 else p

/-- the parameter is a probability, and one of the multiples of `1/N` -/
def Chance (N : ℕ) (p : ℚ) : Prop := 0 ≤ p ∧ p ≤ 1 ∧ ∃ k : ℕ, p = k / N

/-- a possible step of the tilted chain to another plan -/
def TiltMove {α : Type} (Rel : α → α → Prop) (σ : α → A) (mx : Bool) (p : ℚ) (u v : α) : Prop := Rel u v ∧ (isImprovement mx (σ v) (σ u) = true ∨ 0 < p)

/-- a possible step of the tilted chain: a move, or a move refused -/
def TiltStep {α : Type} (Rel : α → α → Prop) (σ : α → A) (mx : Bool) (p : ℚ) (u v : α) : Prop :=
  TiltMove Rel σ mx p u v ∨ (u = v ∧ p < 1 ∧ ∃ z, Rel u z ∧ ¬ isImprovement mx (σ z) (σ u) = true)

/-- from everywhere the tilted chain can get to it can get to an optimal plan -/
def CanClimb {α : Type} (S : Finset α) (Rel : α → α → Prop) (σ : α → A) (mx : Bool) (p : ℚ) (x0 : α) : Prop :=
  ∀ x, Relation.ReflTransGen (TiltMove Rel σ mx p) x0 x → ∃ y, IsOptimal S σ mx y ∧ Relation.ReflTransGen (TiltMove Rel σ mx p) x y

/-- bursts of `n` steps of the tilted chain can find an optimal plan from every best plan they can get to -/
def CanFindTilted {α : Type} (S : Finset α) (Rel : α → α → Prop) (σ : α → A) (mx : Bool) (p : ℚ) (n : ℕ) (x0 : α) : Prop :=
  ∀ x, Relation.ReflTransGen (BurstTo (TiltStep Rel σ mx p) n σ mx) x0 x →
    ∃ y, IsOptimal S σ mx y ∧ Relation.ReflTransGen (BurstTo (TiltStep Rel σ mx p) n σ mx) x y

/-! ### The acceptance function -/

section accept
variable {α : Type} {N d : ℕ} {o : OptCfg Tape (PlanState V P) A} {φ : PlanState V P → α} {σ : α → A} {p : ℚ}

theorem random_real (N : ℕ) (t : Tape) : ((do let u ← (uniRand N).random; pure (u : ℝ)) : M Tape ℝ) t = (.ok ((((t.headD 0 % N : ℕ) : ℚ) / (N : ℚ) : ℚ) : ℝ), t.tail) := by
  cases t <;> rfl

theorem tiltedOn_eq (hscore : ∀ x t, o.score x t = (.ok (σ (φ x)), t)) (y : PlanState V P) (t : Tape) : tiltedOn N o p y t =
    match y.parent with
    | none => (.ok true, t)
    | some b => if isImprovement o.maximize (σ (φ y)) (σ (φ ⟨b, none⟩)) then (.ok true, t) else (.ok (decide ((((t.headD 0 % N : ℕ) : ℚ) / (N : ℚ)) < p)), t.tail) := by
  unfold tiltedOn tiltedAccept
  rcases y with ⟨pl, _ | b⟩
  · rfl
  · show M.bind (o.score ⟨pl, some b⟩) _ t = _
    unfold M.bind
    rw [hscore]
    dsimp only
    show M.bind (o.score ⟨b, none⟩) _ t = _
    unfold M.bind
    rw [hscore]
    dsimp only
    split_ifs with h
    · rfl
    · show M.bind _ _ t = _
      unfold M.bind
      rw [random_real]
      dsimp only
      have : decide (((((t.headD 0 % N : ℕ) : ℚ) / (N : ℚ) : ℚ) : ℝ) < (p : ℝ)) = decide ((((t.headD 0 % N : ℕ) : ℚ) / (N : ℚ)) < p) := by
        rw [decide_eq_decide]
        exact Rat.cast_lt
      rw [this]
      rfl

theorem draws_tiltedOn (hscore : ∀ x t, o.score x t = (.ok (σ (φ x)), t)) (y : PlanState V P) : Draws 1 (tiltedOn N o p y) := by
  rcases hy : y.parent with _ | b
  · refine .done (.ok true) (fun t => ?_)
    rw [tiltedOn_eq hscore, hy]
  · by_cases h : isImprovement o.maximize (σ (φ y)) (σ (φ ⟨b, none⟩)) = true
    · refine .done (.ok true) (fun t => ?_)
      rw [tiltedOn_eq hscore, hy]
      exact if_pos h
    · refine .draw (fun i t => (.ok (decide ((((i % N : ℕ) : ℚ) / (N : ℚ)) < p)), t)) (fun t => ?_) (fun i => .done _ (fun t => rfl))
      rw [tiltedOn_eq hscore, hy]
      exact if_neg h

theorem tiltedOn_accepts (hN : 0 < N) (hp : Chance N p) (hscore : ∀ x t, o.score x t = (.ok (σ (φ x)), t)) {y : PlanState V P} {b : Assignment V P} (hy : y.parent = some b) :
    AcceptsWith N 1 (tiltedOn N o p y) (tiltChance σ o.maximize p (φ ⟨b, none⟩) (φ y)) where
  ok := by
    intro t
    rw [tiltedOn_eq hscore, hy]
    dsimp only
    split_ifs
    · exact ⟨_, rfl⟩
    · exact ⟨_, rfl⟩
  law := by
    intro L hL
    obtain ⟨L, rfl⟩ : ∃ k, L = k + 1 := ⟨L - 1, by omega⟩
    unfold tiltChance
    by_cases h : isImprovement o.maximize (σ (φ y)) (σ (φ ⟨b, none⟩)) = true
    · rw [if_pos h]
      have : ∀ t, (if (tiltedOn N o p y t).1 = .ok true then (1 : ℚ) else 0) = 1 := by
        intro t
        refine if_pos ?_
        rw [tiltedOn_eq hscore, hy]
        dsimp only
        rw [if_pos h]
      rw [avg_congr N _ this, avg_const hN]
    · rw [if_neg h]
      obtain ⟨-, hp1, k, hk⟩ := hp
      have := avg_random hN L p k hk hp1 true false (fun r : Py Bool => if r = .ok true then (1 : ℚ) else 0)
      rw [if_pos rfl, if_neg (by simp), mul_one, mul_zero, add_zero] at this
      refine Eq.trans (avg_congr N _ (fun t => ?_)) this
      have e1 : (tiltedOn N o p y t).1 = .ok (decide ((((t.headD 0 % N : ℕ) : ℚ) / (N : ℚ)) < p)) := by
        rw [tiltedOn_eq hscore, hy]
        dsimp only
        rw [if_neg h]
      have e2 : (M.bind (uniRand N).random (fun u => (if u < p then pure true else pure false : M Tape Bool)) t).1 =
          .ok (decide ((((t.headD 0 % N : ℕ) : ℚ) / (N : ℚ)) < p)) := by
        have e' : M.bind (uniRand N).random (fun u => (if u < p then pure true else pure false : M Tape Bool)) t =
            (if (((t.headD 0 % N : ℕ) : ℚ) / (N : ℚ)) < p then pure true else pure false : M Tape Bool) t.tail := by
          cases t <;> rfl
        rw [e']
        split_ifs with hlt
        · rw [decide_eq_true hlt]; rfl
        · rw [decide_eq_false hlt]; rfl
      show (if _ then (1 : ℚ) else 0) = (if (M.bind (uniRand N).random (fun u => (if u < p then pure true else pure false : M Tape Bool)) t).1 = .ok true then (1 : ℚ) else 0)
      by_cases hd : decide ((((t.headD 0 % N : ℕ) : ℚ) / (N : ℚ)) < p) = true
      · rw [if_pos (by rw [e1, hd]), if_pos (by rw [e2, hd])]
      · rw [if_neg (by rw [e1]; simpa using hd), if_neg (by rw [e2]; simpa using hd)]

end accept

/-! ### The law of the tilted runs -/

section law
variable {α : Type} [DecidableEq α] {N d : ℕ} {o : OptCfg Tape (PlanState V P) A} {Good : PlanState V P → Prop} {φ : PlanState V P → α} {S : Finset α} {B K : α → α → ℚ}
  {ρ : α → ℚ} {σ : α → A} {p : ℚ}

theorem tiltChance_isChance (h0 : 0 ≤ p) (h1 : p ≤ 1) (mx : Bool) : IsChance S (tiltChance σ mx p) := by
  intro x _ y _
  unfold tiltChance
  split_ifs
  · exact ⟨zero_le_one, le_rfl⟩
  · exact ⟨h0, h1⟩

/-- the law of an optimizer with the tilted acceptance function -/
theorem OptLaw.tilted (h : OptLaw N d o alwaysAccept Good φ S B ρ σ) (hN : 0 < N) (hp : Chance N p) (hscore : ∀ x t, o.score x t = (.ok (σ (φ x)), t))
    (hφ : ∀ x, φ ⟨x.plan, none⟩ = φ x) (herase : ∀ x t, o.erase x t = t) (hpar : ∀ x t y, (o.proposal x t).1 = .ok y → y.parent = some x.plan) :
    OptLaw N (d + 1) o (tiltedOn N o p) Good φ S (tiltRate S B (tiltChance σ o.maximize p)) ρ σ where
  tries := by
    intro x steps
    refine (h.tries x steps).tilt hN (fun _ _ => rfl) rfl herase (fun y => draws_tiltedOn hscore y) ?_
    intro z _ t y hy
    have hq := hpar z t y (oneTry_proposed (fun _ _ => rfl) hy)
    have := tiltedOn_accepts (φ := φ) (σ := σ) (o := o) hN hp hscore hq
    rwa [hφ] at this
  score := h.score
  consumer := h.consumer
  valid := h.valid

/-- the probability that a tilted run ends with a best plan in `T`, compared with the Markov chain -/
theorem tilted_bounds (h : OptLaw N d o alwaysAccept Good φ S B ρ σ) (hN : 0 < N) (hp : Chance N p) (hscore : ∀ x t, o.score x t = (.ok (σ (φ x)), t))
    (hφ : ∀ x, φ ⟨x.plan, none⟩ = φ x) (herase : ∀ x t, o.erase x t = t) (hpar : ∀ x t y, (o.proposal x t).1 = .ok y → y.parent = some x.plan) (hinit : Good o.initial)
    (T : PlanState V P × A → Prop) [DecidablePred T] (T' : α → Prop) [DecidablePred T'] (hT : ∀ b : PlanState V P × A, Good b.1 → b.2 = σ (φ b.1) → (T b ↔ T' (φ b.1)))
    {f : ℕ} (hf : 0 < f) {c : ℚ} (hc : 0 ≤ c) (h0 : ∀ x ∈ S, ∀ y ∈ S, 0 ≤ triedKernel B ρ f x y) (hle : ∀ x ∈ S, ∀ y ∈ S, triedKernel B ρ f x y ≤ K x y)
    (hge : ∀ x ∈ S, ∀ y ∈ S, c * K x y ≤ triedKernel B ρ f x y) (n body : ℕ) (hbody : n + 1 < body) :
    (∀ L, n * (f * (d + 1)) ≤ L →
      avg N L (fun t => endsWith T (o.singleRun (tiltedOn N o p) (n + 1 : ℕ) f body t)) ≤
        burstsMean S (tiltRate S K (tiltChance σ o.maximize p)) n σ o.maximize 1 (isIn T') (φ o.initial) ∧
      c ^ n * burstsMean S (tiltRate S K (tiltChance σ o.maximize p)) n σ o.maximize 1 (isIn T') (φ o.initial) ≤
        avg N L (fun t => endsWith T (o.singleRun (tiltedOn N o p) (n + 1 : ℕ) f body t))) ∧
    ∀ num L, num * (n * (f * (d + 1))) ≤ L →
      avg N L (fun t => endsWith T (o.shortBursts (tiltedOn N o p) (n + 1 : ℕ) num f body t)) ≤
        burstsMean S (tiltRate S K (tiltChance σ o.maximize p)) n σ o.maximize num (isIn T') (φ o.initial) ∧
      c ^ (n * num) * burstsMean S (tiltRate S K (tiltChance σ o.maximize p)) n σ o.maximize num (isIn T') (φ o.initial) ≤
        avg N L (fun t => endsWith T (o.shortBursts (tiltedOn N o p) (n + 1 : ℕ) num f body t)) := by
  have hl := h.tilted hN hp hscore hφ herase hpar
  have hw : IsChance S (tiltChance σ o.maximize p) := tiltChance_isChance hp.1 hp.2.1 _
  have hdom : ∀ num, burstsMean S (tiltRate S (triedKernel B ρ f) (tiltChance σ o.maximize p)) n σ o.maximize num (isIn T') (φ o.initial) ≤
        burstsMean S (tiltRate S K (tiltChance σ o.maximize p)) n σ o.maximize num (isIn T') (φ o.initial) ∧
      (c ^ n) ^ num * burstsMean S (tiltRate S K (tiltChance σ o.maximize p)) n σ o.maximize num (isIn T') (φ o.initial) ≤
        burstsMean S (tiltRate S (triedKernel B ρ f) (tiltChance σ o.maximize p)) n σ o.maximize num (isIn T') (φ o.initial) := by
    intro num
    refine (burstsMean_dominated (σ := σ) (mx := o.maximize) hc (fun x hx y hy => tiltRate_nonneg hw h0 hx hy) (fun x hx y hy => tiltRate_mono hw hle hx hy)
      (fun x hx y hy => ?_) n (ψ := isIn T') (fun m _ => isIn_nonneg m) num (φ o.initial) ((h.tries o.initial 0).mem _ hinit)).2
    rw [← tiltRate_smul]
    exact tiltRate_mono hw hge hx hy
  constructor
  · intro L hL
    rw [hl.single_run hN f hf hinit T T' hT n body hbody L hL, triedKernel_tilt]
    have := hdom 1
    rwa [pow_one] at this
  · intro num L hL
    rw [hl.short_bursts hN f hf hinit T T' hT n num body hbody L hL, triedKernel_tilt, pow_mul]
    exact hdom num

end law

/-! ### When they find it -/

section find
variable {α : Type} [DecidableEq α] {S : Finset α} {K : α → α → ℚ} {σ : α → A} {mx : Bool} {p : ℚ} {Rel : α → α → Prop} {x0 : α}

theorem tiltChance_pos {x y : α} : (0 < tiltChance σ mx p x y ↔ isImprovement mx (σ y) (σ x) = true ∨ 0 < p) ∧
    (tiltChance σ mx p x y < 1 ↔ p < 1 ∧ ¬ isImprovement mx (σ y) (σ x) = true) := by
  unfold tiltChance
  split_ifs with h
  · simp [h]
  · simp [h]

theorem tilt_moves (hK : IsKernel S K) (h0 : 0 ≤ p) (h1 : p ≤ 1) (hrel : ∀ x ∈ S, ∀ y, PosStep S K x y ↔ Rel x y) : ∀ x ∈ S, ∀ y,
    (PosStep S (tiltRate S K (tiltChance σ mx p)) x y ↔ TiltStep Rel σ mx p x y) := by
  intro x hx y
  rw [tilt_posStep hK (tiltChance_isChance h0 h1 mx)]
  unfold TiltStep TiltMove
  rw [hrel x hx y, tiltChance_pos.1]
  refine or_congr Iff.rfl (and_congr_right (fun _ => ?_))
  constructor
  · rintro ⟨z, h2, h3⟩
    exact ⟨(tiltChance_pos.2.1 h3).1, z, (hrel x hx z).1 h2, (tiltChance_pos.2.1 h3).2⟩
  · rintro ⟨h2, z, h3, h4⟩
    exact ⟨z, (hrel x hx z).2 h3, tiltChance_pos.2.2 ⟨h2, h4⟩⟩

theorem tilt_reach_iff (hK : IsKernel S K) (h0 : 0 ≤ p) (h1 : p ≤ 1) (hrel : ∀ x ∈ S, ∀ y, PosStep S K x y ↔ Rel x y) {x : α} (hx : x ∈ S) (y : α) :
    Relation.ReflTransGen (PosStep S (tiltRate S K (tiltChance σ mx p))) x y ↔ Relation.ReflTransGen (TiltMove Rel σ mx p) x y := by
  constructor
  · intro h
    induction h with
    | refl => exact .refl
    | @tail u v hu h ih =>
      rcases (tilt_moves hK h0 h1 hrel u h.1 v).1 h with h | ⟨rfl, -⟩
      · exact ih.tail h
      · exact ih
  · intro h
    induction h with
    | refl => exact .refl
    | tail _ h ih => exact ih.tail ((tilt_moves hK h0 h1 hrel _ (reached_mem hx ih) _).2 (.inl h))

theorem canClimb_of_pos (hp : 0 < p) (hx0 : x0 ∈ S) (hclosed : ∀ x ∈ S, ∀ y, Rel x y → y ∈ S) (hirr : ∀ x ∈ S, ∀ y ∈ S, Relation.ReflTransGen Rel x y) :
    CanClimb S Rel σ mx p x0 := by
  intro x h
  have hx : x ∈ S := by
    induction h with
    | refl => exact hx0
    | tail _ h ih => exact hclosed _ ih _ h.1
  obtain ⟨o, ho, hopt⟩ := exists_optimal ⟨x0, hx0⟩ σ mx
  exact ⟨o, hopt, Relation.ReflTransGen.lift id (fun u v huv => ⟨huv, .inr hp⟩) _ _ (hirr x hx o ho)⟩

/-- one long run -/
theorem canClimb_iff (hK : IsKernel S K) (h0 : 0 ≤ p) (h1 : p ≤ 1) (hrel : ∀ x ∈ S, ∀ y, PosStep S K x y ↔ Rel x y)
    (hirr : ∀ x ∈ S, ∀ y ∈ S, Relation.ReflTransGen Rel x y) (hx0 : x0 ∈ S) : CanClimb S Rel σ mx p x0 ↔
      ∀ δ : ℚ, 0 < δ → ∃ n0 : ℕ, ∀ n, n0 ≤ n → 1 - δ ≤ burstsMean S (tiltRate S K (tiltChance σ mx p)) n σ mx 1 (isIn (IsOptimal S σ mx)) x0 := by
  have hker := tilt_isKernel hK (tiltChance_isChance (S := S) (σ := σ) h0 h1 mx)
  have hclosed : ∀ x ∈ S, ∀ y, Rel x y → y ∈ S := fun x hx y h => ((hrel x hx y).2 h).2.1
  rw [← run_find_iff hker hx0]
  · unfold CanClimb
    refine forall_congr' (fun x => ?_)
    rw [tilt_reach_iff hK h0 h1 hrel hx0]
    refine imp_congr_right (fun h => exists_congr (fun y => and_congr_right (fun _ => ?_)))
    rw [tilt_reach_iff hK h0 h1 hrel (reached_mem hx0 ((tilt_reach_iff hK h0 h1 hrel hx0 x).2 h))]
  · intro x hx y hxy
    rcases hxy.cases_head with rfl | ⟨c, hc, -⟩
    · exact ⟨x, hx, .refl⟩
    · have hxS : x ∈ S := hc.1
      have hyS := reached_mem hxS hxy
      rcases h0.eq_or_lt with hp | hp
      · refine ⟨y, ?_, .refl⟩
        have hxy' := (tilt_reach_iff hK h0 h1 hrel hxS y).1 hxy
        clear hxy hyS hc
        induction hxy' with
        | refl => exact hx
        | tail _ h ih =>
          rcases h.2 with h | h
          · exact fun z hz => improve_trans h (ih z hz)
          · exact absurd (hp ▸ h) (lt_irrefl _)
      · obtain ⟨z, hz, hr⟩ := canClimb_of_pos (σ := σ) (mx := mx) hp hyS hclosed hirr y .refl
        exact ⟨z, hz, (tilt_reach_iff hK h0 h1 hrel hyS z).2 hr⟩

theorem isChain_congr {K : α → α → ℚ} (hrel : ∀ x ∈ S, ∀ y, PosStep S K x y ↔ Rel x y) (l : List α) {x : α} (hx : x ∈ S) :
    List.IsChain (PosStep S K) (x :: l) ↔ List.IsChain Rel (x :: l) := by
  induction l generalizing x with
  | nil => exact ⟨fun _ => .singleton x, fun _ => .singleton x⟩
  | cons z l ih =>
    rw [List.isChain_cons_cons, List.isChain_cons_cons, hrel x hx z]
    exact and_congr_right (fun h => ih ((hrel x hx z).2 h).2.1)

theorem burstReach_congr {K : α → α → ℚ} {n : ℕ} (hrel : ∀ x ∈ S, ∀ y, PosStep S K x y ↔ Rel x y) {x : α} (hx : x ∈ S) (y : α) :
    (Relation.ReflTransGen (BurstTo (PosStep S K) n σ mx) x y ↔ Relation.ReflTransGen (BurstTo Rel n σ mx) x y) ∧
      (Relation.ReflTransGen (BurstTo Rel n σ mx) x y → y ∈ S) := by
  have hto : ∀ u ∈ S, ∀ v, BurstTo (PosStep S K) n σ mx u v ↔ BurstTo Rel n σ mx u v := fun u hu v =>
    exists_congr (fun l => and_congr_left (fun _ => isChain_congr hrel l hu))
  have hmem : ∀ u ∈ S, ∀ v, BurstTo Rel n σ mx u v → v ∈ S := by
    intro u hu v h
    obtain ⟨l, h1, -, rfl⟩ := (hto u hu v).2 h
    exact lastBest_mem hu (chain_mem h1)
  have hreach : ∀ v, Relation.ReflTransGen (BurstTo Rel n σ mx) x v → v ∈ S := by
    intro v h
    induction h with
    | refl => exact hx
    | tail _ h ih => exact hmem _ ih _ h
  refine ⟨⟨fun h => ?_, fun h => ?_⟩, hreach y⟩
  · induction h with
    | refl => exact .refl
    | tail _ h ih => exact ih.tail ((hto _ (hreach _ ih) _).1 h)
  · induction h with
    | refl => exact .refl
    | tail h1 h ih => exact ih.tail ((hto _ (hreach _ h1) _).2 h)

/-- bursts -/
theorem canFindTilted_iff (hK : IsKernel S K) (h0 : 0 ≤ p) (h1 : p ≤ 1) (hrel : ∀ x ∈ S, ∀ y, PosStep S K x y ↔ Rel x y) (hx0 : x0 ∈ S) (n : ℕ) :
    CanFindTilted S Rel σ mx p n x0 ↔
      ∀ δ : ℚ, 0 < δ → ∃ k0 : ℕ, ∀ k, k0 ≤ k → 1 - δ ≤ burstsMean S (tiltRate S K (tiltChance σ mx p)) n σ mx k (isIn (IsOptimal S σ mx)) x0 := by
  have hker := tilt_isKernel hK (tiltChance_isChance (S := S) (σ := σ) h0 h1 mx)
  have hrel' := tilt_moves (σ := σ) (mx := mx) hK h0 h1 hrel
  rw [← bursts_find_iff hker n hx0]
  unfold CanFindTilted
  refine forall_congr' (fun x => ?_)
  rw [(burstReach_congr hrel' hx0 x).1]
  refine imp_congr_right (fun h => exists_congr (fun y => and_congr_right (fun _ => ?_)))
  rw [(burstReach_congr hrel' ((burstReach_congr hrel' hx0 x).2 h) y).1]

/-- long bursts with a positive `p` can -/
theorem canFindTilted_long (hK : IsKernel S K) (hp : 0 < p) (h1 : p ≤ 1) (hrel : ∀ x ∈ S, ∀ y, PosStep S K x y ↔ Rel x y)
    (hirr : ∀ x ∈ S, ∀ y ∈ S, Relation.ReflTransGen Rel x y) (hx0 : x0 ∈ S) {n : ℕ} (hn : S.card ≤ n + 1) : CanFindTilted S Rel σ mx p n x0 := by
  intro x h
  have hker := tilt_isKernel hK (tiltChance_isChance (S := S) (σ := σ) hp.le h1 mx)
  have hrel' := tilt_moves (σ := σ) (mx := mx) hK hp.le h1 hrel
  have hx := (burstReach_congr hrel' hx0 x).2 h
  obtain ⟨o, ho, hopt⟩ := exists_optimal ⟨x0, hx0⟩ σ mx
  have hclosed : ∀ u ∈ S, ∀ v, Rel u v → v ∈ S := fun u hu v h => ((hrel u hu v).2 h).2.1
  obtain ⟨l, g1, g2, g3⟩ := (stepsTo_card (fun u hu v hv => hclosed u hu v hv) ho hx (hirr x hx o ho) hn).path
  have g1' : List.IsChain (TiltStep Rel σ mx p) (x :: l) := g1.imp (fun u v huv => .inl ⟨huv, .inr hp⟩)
  obtain ⟨y, hy1, hy2⟩ := burst_reaches hker hx ⟨l, o, (isChain_congr hrel' l hx).2 g1', g2, g3, hopt⟩
  exact ⟨y, hy1, ((burstReach_congr hrel' hx y).1).1 (.single hy2)⟩

end find

/-! ### Flips -/

/-- the plan that a proposal makes with `Partition.flip` has the plan it started from as its parent -/
theorem flip_parent {x y : PlanState V P} {m : M Tape (Dict V P)} {t : Tape} (h : (M.bind m (fun f => M.lift (x.flip f)) t).1 = .ok y) : y.parent = some x.plan := by
  unfold M.bind at h
  rcases hm : m t with ⟨_ | f, s⟩ <;> rw [hm] at h
  · cases h
  · change (x.flip f) = _ at h
    unfold PlanState.flip at h
    rcases hb : x.plan.flip f with _ | b <;> rw [hb] at h
    · cases h
    · cases h
      rfl

section flips
variable [DecidableEq (V → Option P)] {G : Graph V} {W : (V → Option P) → Bool} {a : Assignment V P} {S : Finset (V → Option P)} {N d : ℕ}
  {prop : PlanState V P → M Tape (PlanState V P)} {cs : List (Constraint Tape (PlanState V P))} {r : (V → Option P) → V → ℚ} {u : (V → Option P) → ℚ}
  {σ : (V → Option P) → A} {mx : Bool} {p : ℚ}

/-- The probability that `tilted_run(n + 1, p)` with at most `f` proposals in each step ends without an exception and with a best plan and score that satisfy `T`. -/
noncomputable def tiltedRun (N L : ℕ) (prop : PlanState V P → M Tape (PlanState V P)) (cs : List (Constraint Tape (PlanState V P))) (a : Assignment V P)
    (σ : (V → Option P) → A) (mx : Bool) (p : ℚ) (n f body : ℕ) (T : PlanState V P × A → Prop) [DecidablePred T] : ℚ :=
  avg N L (fun t => endsWith T ((flipOptimizer prop cs a σ mx).singleRun (tiltedOn N (flipOptimizer prop cs a σ mx) p) (n + 1 : ℕ) f body t))

/-- The same for `tilted_short_bursts(n + 1, num, p)`. -/
noncomputable def tiltedBursts (N L : ℕ) (prop : PlanState V P → M Tape (PlanState V P)) (cs : List (Constraint Tape (PlanState V P))) (a : Assignment V P)
    (σ : (V → Option P) → A) (mx : Bool) (p : ℚ) (n num f body : ℕ) (T : PlanState V P × A → Prop) [DecidablePred T] : ℚ :=
  avg N L (fun t => endsWith T ((flipOptimizer prop cs a σ mx).shortBursts (tiltedOn N (flipOptimizer prop cs a σ mx) p) (n + 1 : ℕ) num f body t))

theorem flip_tilted (hs : FlipSetting G W a S) (hr : Rates G W S r) (hcs : Decides W cs) (hN : 0 < N) (hp : Chance N p) (hu : ∀ m ∈ S, 0 < u m)
    (hlaw : ∀ x : PlanState V P, InClass G S x → FlipLaw N d G prop x (u x.plan.mapping.get?) (r x.plan.mapping.get?))
    (hpar : ∀ x t y, (prop x t).1 = .ok y → y.parent = some x.plan)
    {c : ℚ} (hc0 : 0 ≤ c) (hc : ∀ m ∈ S, 1 - u m * flipWeight G W r m ≤ c) (hc1 : c < 1) (T : PlanState V P × A → Prop) [DecidablePred T] (T' : (V → Option P) → Prop)
    [DecidablePred T'] (hT : ∀ b : PlanState V P × A, InClass G S b.1 → b.2 = σ b.1.plan.mapping.get? → (T b ↔ T' b.1.plan.mapping.get?))
    (n f body : ℕ) (hf : 0 < f) (hbody : n + 1 < body) :
    (∀ L, n * (f * (d + 1)) ≤ L →
      tiltedRun N L prop cs a σ mx p n f body T ≤ burstsMean S (tiltRate S (flipKernel G W r) (tiltChance σ mx p)) n σ mx 1 (isIn T') a.mapping.get? ∧
      (1 - c ^ f) ^ n * burstsMean S (tiltRate S (flipKernel G W r) (tiltChance σ mx p)) n σ mx 1 (isIn T') a.mapping.get? ≤ tiltedRun N L prop cs a σ mx p n f body T) ∧
    ∀ num L, num * (n * (f * (d + 1))) ≤ L →
      tiltedBursts N L prop cs a σ mx p n num f body T ≤ burstsMean S (tiltRate S (flipKernel G W r) (tiltChance σ mx p)) n σ mx num (isIn T') a.mapping.get? ∧
      (1 - c ^ f) ^ (n * num) * burstsMean S (tiltRate S (flipKernel G W r) (tiltChance σ mx p)) n σ mx num (isIn T') a.mapping.get? ≤
        tiltedBursts N L prop cs a σ mx p n num f body T := by
  have hpow1 : c ^ f ≤ 1 := pow_le_one₀ hc0 hc1.le
  exact tilted_bounds (optLaw_flips hs hcs hN hlaw σ mx) hN hp (fun _ _ => rfl) (fun _ => rfl) (fun _ _ => rfl) hpar ⟨hs.coherent, hs.covers, hs.initial⟩ T T' hT hf
    (by linarith) (fun m hm m' hm' => (flips_dominated hs hr hcs hN hu hlaw hc hc1 f hm hm').1)
    (fun m hm m' hm' => (flips_dominated hs hr hcs hN hu hlaw hc hc1 f hm hm').2.1) (fun m hm m' hm' => (flips_dominated hs hr hcs hN hu hlaw hc hc1 f hm hm').2.2) n body hbody

/-- close to 1 times close to 1 -/
theorem close_mul {x y δ : ℚ} (hδ : 0 < δ) (h2 : 1 - min (δ / 2) 1 ≤ x) (h3 : 1 - min (δ / 2) 1 ≤ y) : 1 - δ ≤ y * x := by
  have h4 : min (δ / 2) 1 ≤ δ / 2 := min_le_left _ _
  have h5 : min (δ / 2) 1 ≤ 1 := min_le_right _ _
  have h6 := mul_le_mul h3 h2 (by linarith) (le_trans (by linarith) h3)
  have h7 : 0 ≤ min (δ / 2) 1 * min (δ / 2) 1 := mul_self_nonneg _
  nlinarith

theorem flip_rel (hs : FlipSetting G W a S) (hr : Rates G W S r) : ∀ m ∈ S, ∀ m', PosStep S (flipKernel G W r) m m' ↔ FlipMove G W m m' :=
  fun _ hm _ => flip_posStep hs hr hm

theorem flip_irr (hs : FlipSetting G W a S) : ∀ m ∈ S, ∀ m' ∈ S, Relation.ReflTransGen (FlipMove G W) m m' := fun _ hm _ hm' => hs.reach hm hm'

/-- When tilted runs find the best plan: for all proposals with a law of this kind; `Ok N` says which random numbers will do. -/
theorem flip_tilted_iff (hs : FlipSetting G W a S) (hr : Rates G W S r) (hu : ∀ m ∈ S, 0 < u m) (prop : ℕ → PlanState V P → M Tape (PlanState V P)) (Ok : ℕ → Prop)
    (hlaw : ∀ N, 0 < N → Ok N → ∀ x : PlanState V P, InClass G S x → FlipLaw N d G (prop N) x (u x.plan.mapping.get?) (r x.plan.mapping.get?))
    (hpar : ∀ N x t y, (prop N x t).1 = .ok y → y.parent = some x.plan) (hex : ∃ N, 0 < N ∧ Ok N ∧ Chance N p) (h0 : 0 ≤ p) (h1 : p ≤ 1) :
    (CanClimb S (FlipMove G W) σ mx p a.mapping.get? ↔ ∀ δ : ℚ, 0 < δ → ∃ n0 : ℕ, ∀ n, n0 ≤ n → ∃ f0 : ℕ, ∀ f, f0 ≤ f → ∀ N, 0 < N → Ok N → Chance N p → ∀ cs, Decides W cs →
      ∀ body L, n + 1 < body → n * (f * (d + 1)) ≤ L → 1 - δ ≤ tiltedRun N L (prop N) cs a σ mx p n f body (FoundBest S σ mx)) ∧
    ∀ n, (CanFindTilted S (FlipMove G W) σ mx p n a.mapping.get? ↔ ∀ δ : ℚ, 0 < δ → ∃ num0 : ℕ, ∀ num, num0 ≤ num → ∃ f0 : ℕ, ∀ f, f0 ≤ f →
      ∀ N, 0 < N → Ok N → Chance N p → ∀ cs, Decides W cs →
      ∀ body L, n + 1 < body → num * (n * (f * (d + 1))) ≤ L → 1 - δ ≤ tiltedBursts N L (prop N) cs a σ mx p n num f body (FoundBest S σ mx)) := by
  obtain ⟨c, hc0, hc1, hc⟩ := exists_refusal_bound hs hr hu
  have hbounds := fun N (hN : 0 < N) (hok : Ok N) (hp : Chance N p) cs (hcs : Decides W cs) n f body hf hbody => flip_tilted (σ := σ) (mx := mx) (p := p) hs hr hcs hN hp hu (hlaw N hN hok)
    (hpar N) hc0 hc hc1 (FoundBest S σ mx) (IsOptimal S σ mx) (fun b _ hb => foundBest_iff b hb) n f body hf hbody
  obtain ⟨N', hN', hok', hp'⟩ := hex
  constructor
  · rw [canClimb_iff (flipKernel_isKernel hs hr) h0 h1 (flip_rel hs hr) (flip_irr hs) hs.initial]
    constructor
    · intro h δ hδ
      have hδ' : 0 < min (δ / 2) 1 := lt_min (by linarith) one_pos
      obtain ⟨n0, h2⟩ := h _ hδ'
      refine ⟨n0, fun n hn => ?_⟩
      obtain ⟨f0, hf0⟩ := enough_tries hc0 hc1 n hδ'
      exact ⟨f0 + 1, fun f hf N hN hok hp cs hcs body L hbody hL =>
        (close_mul hδ (h2 n hn) (hf0 f (by omega))).trans ((hbounds N hN hok hp cs hcs n f body (by omega) hbody).1 L hL).2⟩
    · intro h δ hδ
      obtain ⟨n0, h2⟩ := h δ hδ
      refine ⟨n0, fun n hn => ?_⟩
      obtain ⟨f0, hf0⟩ := h2 n hn
      exact (hf0 (f0 + 1) (by omega) N' hN' hok' hp' _ (chainAt_decides a W) (n + 2) _ (by omega) le_rfl).trans
        ((hbounds N' hN' hok' hp' _ (chainAt_decides a W) n (f0 + 1) (n + 2) (by omega) (by omega)).1 _ le_rfl).1
  · intro n
    rw [canFindTilted_iff (flipKernel_isKernel hs hr) h0 h1 (flip_rel hs hr) hs.initial n]
    constructor
    · intro h δ hδ
      have hδ' : 0 < min (δ / 2) 1 := lt_min (by linarith) one_pos
      obtain ⟨num0, h2⟩ := h _ hδ'
      refine ⟨num0, fun num hn => ?_⟩
      obtain ⟨f0, hf0⟩ := enough_tries hc0 hc1 (n * num) hδ'
      exact ⟨f0 + 1, fun f hf N hN hok hp cs hcs body L hbody hL =>
        (close_mul hδ (h2 num hn) (hf0 f (by omega))).trans ((hbounds N hN hok hp cs hcs n f body (by omega) hbody).2 num L hL).2⟩
    · intro h δ hδ
      obtain ⟨n0, h2⟩ := h δ hδ
      refine ⟨n0, fun num hn => ?_⟩
      obtain ⟨f0, hf0⟩ := h2 num hn
      exact (hf0 (f0 + 1) (by omega) N' hN' hok' hp' _ (chainAt_decides a W) (n + 2) _ (by omega) le_rfl).trans
        ((hbounds N' hN' hok' hp' _ (chainAt_decides a W) n (f0 + 1) (n + 2) (by omega) (by omega)).2 num _ le_rfl).1

theorem chance_den {N : ℕ} (hN : 0 < N) (h0 : 0 ≤ p) (h1 : p ≤ 1) : Chance (N * p.den) p := by
  refine ⟨h0, h1, N * p.num.toNat, ?_⟩
  have hN' : (N : ℚ) ≠ 0 := by exact_mod_cast hN.ne'
  have hnum : ((p.num.toNat : ℕ) : ℚ) = (p.num : ℚ) := by
    have : ((p.num.toNat : ℕ) : ℤ) = p.num := Int.toNat_of_nonneg (Rat.num_nonneg.2 h0)
    exact_mod_cast this
  push_cast
  rw [hnum, mul_div_mul_left _ _ hN']
  exact (Rat.num_div_den p).symm

end flips

section slow
variable (G : Graph V) (W : (V → Option P) → Bool) (a : Assignment V P) (S : Finset (V → Option P)) (σ : (V → Option P) → A) (mx : Bool) [DecidableEq (V → Option P)]

/-- **C113** (the law, `slow_reversible_propose`) With at most `f` proposals in each step the probability that `tilted_run(n + 1, p)` ends without an exception and with a best
plan in `T` is at most that of the Markov chain in which a plan one allowed move away is drawn, all equally likely, and is taken if it is no worse, and otherwise with
probability `p`; and at least `(1 - c ^ f) ^ n` times it.  The same for `tilted_short_bursts(n + 1, num, p)`, which starts this chain again at the best plan after each burst. -/
theorem C113_slow_law (hs : FlipSetting G W a S) :
    ∃ c : ℚ, 0 ≤ c ∧ c < 1 ∧ ∀ N p, 0 < N → (∀ m ∈ S, (allowedMoves G m (fun _ => true)).card ∣ N) → Chance N p → ∀ cs, Decides W cs →
      ∀ (T : (V → Option P) → Prop) [DecidablePred T] (n f body : ℕ), 0 < f → n + 1 < body →
      (∀ L, n * (f * 2) ≤ L →
        tiltedRun N L (slowMove N G) cs a σ mx p n f body (fun b => T b.1.plan.mapping.get?) ≤
          burstsMean S (tiltRate S (flipKernel G W (fun _ _ => 1)) (tiltChance σ mx p)) n σ mx 1 (isIn T) a.mapping.get? ∧
        (1 - c ^ f) ^ n * burstsMean S (tiltRate S (flipKernel G W (fun _ _ => 1)) (tiltChance σ mx p)) n σ mx 1 (isIn T) a.mapping.get? ≤
          tiltedRun N L (slowMove N G) cs a σ mx p n f body (fun b => T b.1.plan.mapping.get?)) ∧
      ∀ num L, num * (n * (f * 2)) ≤ L →
        tiltedBursts N L (slowMove N G) cs a σ mx p n num f body (fun b => T b.1.plan.mapping.get?) ≤
          burstsMean S (tiltRate S (flipKernel G W (fun _ _ => 1)) (tiltChance σ mx p)) n σ mx num (isIn T) a.mapping.get? ∧
        (1 - c ^ f) ^ (n * num) * burstsMean S (tiltRate S (flipKernel G W (fun _ _ => 1)) (tiltChance σ mx p)) n σ mx num (isIn T) a.mapping.get? ≤
          tiltedBursts N L (slowMove N G) cs a σ mx p n num f body (fun b => T b.1.plan.mapping.get?) := by
  obtain ⟨c, hc0, hc1, hc⟩ := exists_refusal_bound hs slow_rates (slow_pos hs)
  refine ⟨c, hc0, hc1, ?_⟩
  intro N p hN hd hp cs hcs T _ n f body hf hbody
  exact flip_tilted hs slow_rates hcs hN hp (slow_pos hs) (fun x hx => slow_flipLaw hs hN hd hx) (fun x t y h => flip_parent h) hc0 hc hc1 _ T (fun _ _ _ => Iff.rfl)
    n f body hf hbody

/-- **C113** (when they find it, `slow_reversible_propose`) With enough steps, then enough proposals in each step, `tilted_run` finds an optimal score with a probability as close to
1 as wanted, if and only if from every plan it can get to it can get to an optimal one, by allowed moves that do not make the score worse or, if `p` is positive, by any allowed
moves.  `tilted_short_bursts` does with enough bursts if and only if it can find an optimal plan from every best plan it can get to, by bursts of such moves and of refusals. -/
theorem C113_slow_find_iff (hs : FlipSetting G W a S) {p : ℚ} (h0 : 0 ≤ p) (h1 : p ≤ 1) :
    (CanClimb S (FlipMove G W) σ mx p a.mapping.get? ↔ ∀ δ : ℚ, 0 < δ → ∃ n0 : ℕ, ∀ n, n0 ≤ n → ∃ f0 : ℕ, ∀ f, f0 ≤ f → ∀ N, 0 < N →
      (∀ m ∈ S, (allowedMoves G m (fun _ => true)).card ∣ N) → Chance N p → ∀ cs, Decides W cs →
      ∀ body L, n + 1 < body → n * (f * 2) ≤ L → 1 - δ ≤ tiltedRun N L (slowMove N G) cs a σ mx p n f body (FoundBest S σ mx)) ∧
    ∀ n, (CanFindTilted S (FlipMove G W) σ mx p n a.mapping.get? ↔ ∀ δ : ℚ, 0 < δ → ∃ num0 : ℕ, ∀ num, num0 ≤ num → ∃ f0 : ℕ, ∀ f, f0 ≤ f →
      ∀ N, 0 < N → (∀ m ∈ S, (allowedMoves G m (fun _ => true)).card ∣ N) → Chance N p → ∀ cs, Decides W cs →
      ∀ body L, n + 1 < body → num * (n * (f * 2)) ≤ L → 1 - δ ≤ tiltedBursts N L (slowMove N G) cs a σ mx p n num f body (FoundBest S σ mx)) := by
  refine flip_tilted_iff (d := 1) hs slow_rates (slow_pos hs) (fun N => slowMove N G) (fun N => ∀ m ∈ S, (allowedMoves G m (fun _ => true)).card ∣ N)
    (fun N hN hd x hx => slow_flipLaw hs hN hd hx) (fun N x t y h => flip_parent h) ?_ h0 h1
  obtain ⟨N, hN, hd⟩ := exists_slow_randomness hs
  exact ⟨N * p.den, Nat.mul_pos hN p.den_pos, fun m hm => (hd m hm).mul_right _, chance_den hN h0 h1⟩

/-- **C113** (`p > 0`, `slow_reversible_propose`) If `p` is positive, `tilted_run` finds an optimal score with a probability as close to 1 as wanted, whatever the score. -/
theorem C113_slow_positive (hs : FlipSetting G W a S) {p : ℚ} (h0 : 0 < p) (h1 : p ≤ 1) (δ : ℚ) (hδ : 0 < δ) :
    ∃ n0 : ℕ, ∀ n, n0 ≤ n → ∃ f0 : ℕ, ∀ f, f0 ≤ f → ∀ N, 0 < N → (∀ m ∈ S, (allowedMoves G m (fun _ => true)).card ∣ N) → Chance N p → ∀ cs, Decides W cs →
      ∀ body L, n + 1 < body → n * (f * 2) ≤ L → 1 - δ ≤ tiltedRun N L (slowMove N G) cs a σ mx p n f body (FoundBest S σ mx) :=
  (C113_slow_find_iff G W a S σ mx hs h0.le h1).1.1 (canClimb_of_pos h0 hs.initial (fun _ hm _ h => hs.closed hm h) (flip_irr hs)) δ hδ

/-- **C113** (long bursts, `slow_reversible_propose`) If `p` is positive and a burst is at least as long as there are plans, `tilted_short_bursts` finds an optimal score with a
probability as close to 1 as wanted, whatever the score. -/
theorem C113_slow_long (hs : FlipSetting G W a S) {p : ℚ} (h0 : 0 < p) (h1 : p ≤ 1) (n : ℕ) (hn : S.card ≤ n + 1) (δ : ℚ) (hδ : 0 < δ) :
    ∃ num0 : ℕ, ∀ num, num0 ≤ num → ∃ f0 : ℕ, ∀ f, f0 ≤ f → ∀ N, 0 < N → (∀ m ∈ S, (allowedMoves G m (fun _ => true)).card ∣ N) → Chance N p → ∀ cs, Decides W cs →
      ∀ body L, n + 1 < body → num * (n * (f * 2)) ≤ L → 1 - δ ≤ tiltedBursts N L (slowMove N G) cs a σ mx p n num f body (FoundBest S σ mx) :=
  ((C113_slow_find_iff G W a S σ mx hs h0.le h1).2 n).1
    (canFindTilted_long (flipKernel_isKernel hs slow_rates) h0 h1 (flip_rel hs slow_rates) (flip_irr hs) hs.initial hn) δ hδ

/-- **C113** (the law, `slow_reversible_propose_bi`) -/
theorem C113_bi_law (hs : FlipSetting G W a S) (han : ∀ m ∈ S, Anchored G m) :
    ∃ c : ℚ, 0 ≤ c ∧ c < 1 ∧ ∀ N p, 0 < N → (∀ m ∈ S, Divides N G m) → Chance N p → ∀ cs, Decides W cs →
      ∀ (T : (V → Option P) → Prop) [DecidablePred T] (n f body : ℕ), 0 < f → n + 1 < body →
      (∀ L, n * (f * 3) ≤ L →
        tiltedRun N L (biMove N G) cs a σ mx p n f body (fun b => T b.1.plan.mapping.get?) ≤
          burstsMean S (tiltRate S (flipKernel G W (biRate G)) (tiltChance σ mx p)) n σ mx 1 (isIn T) a.mapping.get? ∧
        (1 - c ^ f) ^ n * burstsMean S (tiltRate S (flipKernel G W (biRate G)) (tiltChance σ mx p)) n σ mx 1 (isIn T) a.mapping.get? ≤
          tiltedRun N L (biMove N G) cs a σ mx p n f body (fun b => T b.1.plan.mapping.get?)) ∧
      ∀ num L, num * (n * (f * 3)) ≤ L →
        tiltedBursts N L (biMove N G) cs a σ mx p n num f body (fun b => T b.1.plan.mapping.get?) ≤
          burstsMean S (tiltRate S (flipKernel G W (biRate G)) (tiltChance σ mx p)) n σ mx num (isIn T) a.mapping.get? ∧
        (1 - c ^ f) ^ (n * num) * burstsMean S (tiltRate S (flipKernel G W (biRate G)) (tiltChance σ mx p)) n σ mx num (isIn T) a.mapping.get? ≤
          tiltedBursts N L (biMove N G) cs a σ mx p n num f body (fun b => T b.1.plan.mapping.get?) := by
  obtain ⟨c, hc0, hc1, hc⟩ := exists_refusal_bound hs (bi_rates hs) (bi_pos hs)
  refine ⟨c, hc0, hc1, ?_⟩
  intro N p hN hd hp cs hcs T _ n f body hf hbody
  exact flip_tilted hs (bi_rates hs) hcs hN hp (bi_pos hs) (fun x hx => bi_flipLaw hs hN hd han hx) (fun x t y h => flip_parent h) hc0 hc hc1 _ T (fun _ _ _ => Iff.rfl)
    n f body hf hbody

/-- **C113** (when they find it, `slow_reversible_propose_bi`) -/
theorem C113_bi_find_iff (hs : FlipSetting G W a S) (han : ∀ m ∈ S, Anchored G m) {p : ℚ} (h0 : 0 ≤ p) (h1 : p ≤ 1) :
    (CanClimb S (FlipMove G W) σ mx p a.mapping.get? ↔ ∀ δ : ℚ, 0 < δ → ∃ n0 : ℕ, ∀ n, n0 ≤ n → ∃ f0 : ℕ, ∀ f, f0 ≤ f → ∀ N, 0 < N →
      (∀ m ∈ S, Divides N G m) → Chance N p → ∀ cs, Decides W cs →
      ∀ body L, n + 1 < body → n * (f * 3) ≤ L → 1 - δ ≤ tiltedRun N L (biMove N G) cs a σ mx p n f body (FoundBest S σ mx)) ∧
    ∀ n, (CanFindTilted S (FlipMove G W) σ mx p n a.mapping.get? ↔ ∀ δ : ℚ, 0 < δ → ∃ num0 : ℕ, ∀ num, num0 ≤ num → ∃ f0 : ℕ, ∀ f, f0 ≤ f →
      ∀ N, 0 < N → (∀ m ∈ S, Divides N G m) → Chance N p → ∀ cs, Decides W cs →
      ∀ body L, n + 1 < body → num * (n * (f * 3)) ≤ L → 1 - δ ≤ tiltedBursts N L (biMove N G) cs a σ mx p n num f body (FoundBest S σ mx)) := by
  refine flip_tilted_iff (d := 2) hs (bi_rates hs) (bi_pos hs) (fun N => biMove N G) (fun N => ∀ m ∈ S, Divides N G m)
    (fun N hN hd x hx => bi_flipLaw hs hN hd han hx) (fun N x t y h => flip_parent h) ?_ h0 h1
  obtain ⟨N, hN, hd⟩ := exists_bi_randomness hs
  exact ⟨N * p.den, Nat.mul_pos hN p.den_pos, fun m hm => ⟨(hd m hm).1.mul_right _, fun v hv => ((hd m hm).2 v hv).mul_right _⟩, chance_den hN h0 h1⟩

/-- **C113** (`p > 0`, `slow_reversible_propose_bi`) -/
theorem C113_bi_positive (hs : FlipSetting G W a S) (han : ∀ m ∈ S, Anchored G m) {p : ℚ} (h0 : 0 < p) (h1 : p ≤ 1) (δ : ℚ) (hδ : 0 < δ) :
    ∃ n0 : ℕ, ∀ n, n0 ≤ n → ∃ f0 : ℕ, ∀ f, f0 ≤ f → ∀ N, 0 < N → (∀ m ∈ S, Divides N G m) → Chance N p → ∀ cs, Decides W cs →
      ∀ body L, n + 1 < body → n * (f * 3) ≤ L → 1 - δ ≤ tiltedRun N L (biMove N G) cs a σ mx p n f body (FoundBest S σ mx) :=
  (C113_bi_find_iff G W a S σ mx hs han h0.le h1).1.1 (canClimb_of_pos h0 hs.initial (fun _ hm _ h => hs.closed hm h) (flip_irr hs)) δ hδ

/-- **C113** (long bursts, `slow_reversible_propose_bi`) If `p` is positive and a burst is at least as long as there are plans, `tilted_short_bursts` finds an optimal score with a
probability as close to 1 as wanted, whatever the score. -/
theorem C113_bi_long (hs : FlipSetting G W a S) (han : ∀ m ∈ S, Anchored G m) {p : ℚ} (h0 : 0 < p) (h1 : p ≤ 1) (n : ℕ) (hn : S.card ≤ n + 1) (δ : ℚ) (hδ : 0 < δ) :
    ∃ num0 : ℕ, ∀ num, num0 ≤ num → ∃ f0 : ℕ, ∀ f, f0 ≤ f → ∀ N, 0 < N → (∀ m ∈ S, Divides N G m) → Chance N p → ∀ cs, Decides W cs →
      ∀ body L, n + 1 < body → num * (n * (f * 3)) ≤ L → 1 - δ ≤ tiltedBursts N L (biMove N G) cs a σ mx p n num f body (FoundBest S σ mx) :=
  ((C113_bi_find_iff G W a S σ mx hs han h0.le h1).2 n).1
    (canFindTilted_long (flipKernel_isKernel hs (bi_rates hs)) h0 h1 (flip_rel hs (bi_rates hs)) (flip_irr hs) hs.initial hn) δ hδ

end slow

/-! ### ReCom -/

section recom
variable {N r m d0 fuel k n f body L : ℕ} {G : Graph V} {pop : V → ℚ} {target eps : ℚ} {span : Graph V → M Tape (WTree V)} {μ : Finset V → Finset (V × V) → ℚ}
  {W : Finset (Finset V) → Bool} {cs : List (Constraint Tape (PlanState V P))} {a : Assignment V P} {σ : Finset (Finset V) → A} {mx : Bool} {p : ℚ}

/-- The probability that `tilted_run(n + 1, p)` with `recom` ends without an exception and with a best plan and score that satisfy `T`, with at most `f` proposals in each step and
at most `m` attempts in each proposal. -/
noncomputable def recomTilted (N L r m : ℕ) (span : Graph V → M Tape (WTree V)) (fuel : ℕ) (G : Graph V) (pop : V → ℚ) (target eps : ℚ)
    (cs : List (Constraint Tape (PlanState V P))) (a : Assignment V P) (σ : Finset (Finset V) → A) (mx : Bool) (p : ℚ) (n f body : ℕ)
    (T : PlanState V P × A → Prop) [DecidablePred T] : ℚ :=
  avg N L (fun t => endsWith T ((recomOptimizer N r m span fuel G pop target eps cs a σ mx).singleRun
    (tiltedOn N (recomOptimizer N r m span fuel G pop target eps cs a σ mx) p) (n + 1 : ℕ) f body t))

/-- The same for `tilted_short_bursts(n + 1, num, p)`. -/
noncomputable def recomTiltedBursts (N L r m : ℕ) (span : Graph V → M Tape (WTree V)) (fuel : ℕ) (G : Graph V) (pop : V → ℚ) (target eps : ℚ)
    (cs : List (Constraint Tape (PlanState V P))) (a : Assignment V P) (σ : Finset (Finset V) → A) (mx : Bool) (p : ℚ) (n num f body : ℕ)
    (T : PlanState V P × A → Prop) [DecidablePred T] : ℚ :=
  avg N L (fun t => endsWith T ((recomOptimizer N r m span fuel G pop target eps cs a σ mx).shortBursts
    (tiltedOn N (recomOptimizer N r m span fuel G pop target eps cs a σ mx) p) (n + 1 : ℕ) num f body t))

theorem recom_tilted (hs : RecomSetting G pop target eps k) (hμ : TreeChances G μ) (ha : a.Coherent) (hQ0 : IsPlan G pop target eps k a.plan) (hW : W a.plan = true) {c d : ℚ}
    (hb : RunBounds G pop target eps k μ W a.plan c d) (hrun : RecomRun N d0 r fuel k G pop target eps μ W span cs) (hp : Chance N p)
    (T : PlanState V P × A → Prop) [DecidablePred T] (T' : Finset (Finset V) → Prop) [DecidablePred T']
    (hT : ∀ b : PlanState V P × A, b.2 = σ b.1.plan.plan → (T b ↔ T' b.1.plan.plan)) (m : ℕ) (hf : 0 < f) (hbody : n + 1 < body) :
    (∀ L, n * (f * (recomDraws d0 m G + 1)) ≤ L →
      recomTilted N L r m span fuel G pop target eps cs a σ mx p n f body T ≤
        burstsMean (recomClass G pop target eps k W a.plan) (tiltRate (recomClass G pop target eps k W a.plan) (keptKernel G pop target eps k μ W) (tiltChance σ mx p)) n σ mx 1
          (isIn T') a.plan ∧
      roundsDone c d r m f ^ n *
          burstsMean (recomClass G pop target eps k W a.plan) (tiltRate (recomClass G pop target eps k W a.plan) (keptKernel G pop target eps k μ W) (tiltChance σ mx p)) n σ mx 1
            (isIn T') a.plan ≤ recomTilted N L r m span fuel G pop target eps cs a σ mx p n f body T) ∧
    ∀ num L, num * (n * (f * (recomDraws d0 m G + 1))) ≤ L →
      recomTiltedBursts N L r m span fuel G pop target eps cs a σ mx p n num f body T ≤
        burstsMean (recomClass G pop target eps k W a.plan) (tiltRate (recomClass G pop target eps k W a.plan) (keptKernel G pop target eps k μ W) (tiltChance σ mx p)) n σ mx num
          (isIn T') a.plan ∧
      roundsDone c d r m f ^ (n * num) *
          burstsMean (recomClass G pop target eps k W a.plan) (tiltRate (recomClass G pop target eps k W a.plan) (keptKernel G pop target eps k μ W) (tiltChance σ mx p)) n σ mx num
            (isIn T') a.plan ≤ recomTiltedBursts N L r m span fuel G pop target eps cs a σ mx p n num f body T := by
  have hself := recomClass_self (W := W) hQ0
  have hstep := fun Q hQ X hX => step_bounds hs hμ hQ0 hW hb.c0 hb.c1 hb.attempt hb.refused r m f (Q := Q) (X := X) hQ hX
  exact tilted_bounds (optLaw_recom hs hQ0 hW hrun m a σ mx) hrun.even.1 hp (fun _ _ => rfl) (fun _ => rfl) (fun _ _ => rfl) (fun x t y h => flip_parent h) ⟨⟨ha, hQ0⟩, hself⟩ T T'
    (fun b _ hb => hT b hb) hf (roundsDone_nonneg hb.c0 hb.c1 hb.d0 hb.d1 r m f) (fun Q hQ X hX => (hstep Q hQ X hX).1) (fun Q hQ X hX => (hstep Q hQ X hX).2.1)
    (fun Q hQ X hX => (hstep Q hQ X hX).2.2) n body hbody

/-- **C113** (the law, `recom`) The same as `C113_slow_law`, with the chain of `recom`. -/
theorem C113_recom_law (hs : RecomSetting G pop target eps k) (hμ : TreeChances G μ) (ha : a.Coherent) (hQ0 : IsPlan G pop target eps k a.plan) (hW : W a.plan = true)
    (σ : Finset (Finset V) → A) (mx : Bool) :
    ∃ c d : ℚ, 0 ≤ c ∧ c < 1 ∧ 0 ≤ d ∧ d < 1 ∧ ∀ (N d0 r fuel : ℕ) (span : Graph V → M Tape (WTree V)) (cs : List (Constraint Tape (PlanState V P))) (p : ℚ),
      RecomRun N d0 r fuel k G pop target eps μ W span cs → Chance N p → ∀ (T : Finset (Finset V) → Prop) [DecidablePred T] (n m f body : ℕ), 0 < f → n + 1 < body →
      (∀ L, n * (f * (recomDraws d0 m G + 1)) ≤ L →
        recomTilted N L r m span fuel G pop target eps cs a σ mx p n f body (fun b => T b.1.plan.plan) ≤
          burstsMean (recomClass G pop target eps k W a.plan) (tiltRate (recomClass G pop target eps k W a.plan) (keptKernel G pop target eps k μ W) (tiltChance σ mx p)) n σ mx 1
            (isIn T) a.plan ∧
        roundsDone c d r m f ^ n *
            burstsMean (recomClass G pop target eps k W a.plan) (tiltRate (recomClass G pop target eps k W a.plan) (keptKernel G pop target eps k μ W) (tiltChance σ mx p)) n σ mx 1
              (isIn T) a.plan ≤ recomTilted N L r m span fuel G pop target eps cs a σ mx p n f body (fun b => T b.1.plan.plan)) ∧
      ∀ num L, num * (n * (f * (recomDraws d0 m G + 1))) ≤ L →
        recomTiltedBursts N L r m span fuel G pop target eps cs a σ mx p n num f body (fun b => T b.1.plan.plan) ≤
          burstsMean (recomClass G pop target eps k W a.plan) (tiltRate (recomClass G pop target eps k W a.plan) (keptKernel G pop target eps k μ W) (tiltChance σ mx p)) n σ mx num
            (isIn T) a.plan ∧
        roundsDone c d r m f ^ (n * num) *
            burstsMean (recomClass G pop target eps k W a.plan) (tiltRate (recomClass G pop target eps k W a.plan) (keptKernel G pop target eps k μ W) (tiltChance σ mx p)) n σ mx num
              (isIn T) a.plan ≤ recomTiltedBursts N L r m span fuel G pop target eps cs a σ mx p n num f body (fun b => T b.1.plan.plan) := by
  obtain ⟨c, d, hb⟩ := exists_runBounds hs hμ hQ0 hW
  refine ⟨c, d, hb.c0, hb.c1, hb.d0, hb.d1, ?_⟩
  intro N d0 r fuel span cs p hrun hp T _ n m f body hf hbody
  exact recom_tilted hs hμ ha hQ0 hW hb hrun hp _ T (fun _ _ => Iff.rfl) m hf hbody

theorem recom_rel (hs : RecomSetting G pop target eps k) (hμ : TreeChances G μ) (hQ0 : IsPlan G pop target eps k a.plan) (hW : W a.plan = true) :
    ∀ Q ∈ recomClass G pop target eps k W a.plan, ∀ X,
      PosStep (recomClass G pop target eps k W a.plan) (keptKernel G pop target eps k μ W) Q X ↔ RecomStep G pop target eps k W Q X :=
  fun _ hQ _ => recom_posStep hs hμ hQ0 hW hQ

theorem recom_irr (hQ0 : IsPlan G pop target eps k a.plan) (hW : W a.plan = true) :
    ∀ Q ∈ recomClass G pop target eps k W a.plan, ∀ X ∈ recomClass G pop target eps k W a.plan, Relation.ReflTransGen (RecomStep G pop target eps k W) Q X := by
  intro Q hQ X hX
  have h : AllowedReach G pop target eps k W Q X := ((mem_recomClass.1 hQ).2.symm' hQ0 hW).1.trans (mem_recomClass.1 hX).2
  exact Relation.ReflTransGen.lift id (fun u v huv => ⟨.inr huv.1, huv.2⟩) _ _ h

/-- **C113** (when they find it, `recom`) The same as `C113_slow_find_iff`, with exchanges of two districts for two others instead of flips. -/
theorem C113_recom_find_iff (hs : RecomSetting G pop target eps k) (hμ : TreeChances G μ) (ha : a.Coherent) (hQ0 : IsPlan G pop target eps k a.plan) (hW : W a.plan = true)
    (hrun : RecomRun N d0 r fuel k G pop target eps μ W span cs) (hp : Chance N p) (σ : Finset (Finset V) → A) (mx : Bool) :
    (CanClimb (recomClass G pop target eps k W a.plan) (RecomStep G pop target eps k W) σ mx p a.plan ↔
      ∀ δ : ℚ, 0 < δ → ∃ n0, ∀ n, n0 ≤ n → ∃ f0, ∀ f, f0 ≤ f → ∃ m0, ∀ m, m0 ≤ m → ∀ body L, n + 1 < body → n * (f * (recomDraws d0 m G + 1)) ≤ L →
        1 - δ ≤ recomTilted N L r m span fuel G pop target eps cs a σ mx p n f body (FoundBestPlan (recomClass G pop target eps k W a.plan) σ mx)) ∧
    ∀ n, (CanFindTilted (recomClass G pop target eps k W a.plan) (RecomStep G pop target eps k W) σ mx p n a.plan ↔
      ∀ δ : ℚ, 0 < δ → ∃ num0, ∀ num, num0 ≤ num → ∃ f0, ∀ f, f0 ≤ f → ∃ m0, ∀ m, m0 ≤ m → ∀ body L, n + 1 < body → num * (n * (f * (recomDraws d0 m G + 1))) ≤ L →
        1 - δ ≤ recomTiltedBursts N L r m span fuel G pop target eps cs a σ mx p n num f body (FoundBestPlan (recomClass G pop target eps k W a.plan) σ mx)) := by
  obtain ⟨c, d, hb⟩ := exists_runBounds hs hμ hQ0 hW
  have hself := recomClass_self (W := W) hQ0
  have hK := keptKernel_isKernel hs hμ hQ0 hW
  have hbounds := fun m n f body (hf : 0 < f) (hbody : n + 1 < body) => recom_tilted (σ := σ) (mx := mx) hs hμ ha hQ0 hW hb hrun hp
    (FoundBestPlan (recomClass G pop target eps k W a.plan) σ mx) (IsOptimal (recomClass G pop target eps k W a.plan) σ mx) (fun b hb => foundBestPlan_iff b hb) m hf hbody
  constructor
  · rw [canClimb_iff hK hp.1 hp.2.1 (recom_rel hs hμ hQ0 hW) (recom_irr hQ0 hW) hself]
    constructor
    · intro h δ hδ
      have hδ' : 0 < min (δ / 2) 1 := lt_min (by linarith) one_pos
      obtain ⟨n0, h2⟩ := h _ hδ'
      refine ⟨n0, fun n hn => ?_⟩
      obtain ⟨f0, hf0⟩ := enough_rounds hb.c0 hb.c1 hb.d0 hb.d1 n hδ'
      refine ⟨f0 + 1, fun f hf => ?_⟩
      obtain ⟨m0, hm0⟩ := hf0 f (by omega) r hrun.repeats
      exact ⟨m0, fun m hm body L hbody hL => (close_mul hδ (h2 n hn) (hm0 m hm)).trans ((hbounds m n f body (by omega) hbody).1 L hL).2⟩
    · intro h δ hδ
      obtain ⟨n0, h2⟩ := h δ hδ
      refine ⟨n0, fun n hn => ?_⟩
      obtain ⟨f0, hf0⟩ := h2 n hn
      obtain ⟨m0, hm0⟩ := hf0 (f0 + 1) (by omega)
      exact (hm0 m0 le_rfl (n + 2) _ (by omega) le_rfl).trans ((hbounds m0 n (f0 + 1) (n + 2) (by omega) (by omega)).1 _ le_rfl).1
  · intro n
    rw [canFindTilted_iff hK hp.1 hp.2.1 (recom_rel hs hμ hQ0 hW) hself n]
    constructor
    · intro h δ hδ
      have hδ' : 0 < min (δ / 2) 1 := lt_min (by linarith) one_pos
      obtain ⟨num0, h2⟩ := h _ hδ'
      refine ⟨num0, fun num hn => ?_⟩
      obtain ⟨f0, hf0⟩ := enough_rounds hb.c0 hb.c1 hb.d0 hb.d1 (n * num) hδ'
      refine ⟨f0 + 1, fun f hf => ?_⟩
      obtain ⟨m0, hm0⟩ := hf0 f (by omega) r hrun.repeats
      exact ⟨m0, fun m hm body L hbody hL => (close_mul hδ (h2 num hn) (hm0 m hm)).trans ((hbounds m n f body (by omega) hbody).2 num L hL).2⟩
    · intro h δ hδ
      obtain ⟨num0, h2⟩ := h δ hδ
      refine ⟨num0, fun num hn => ?_⟩
      obtain ⟨f0, hf0⟩ := h2 num hn
      obtain ⟨m0, hm0⟩ := hf0 (f0 + 1) (by omega)
      exact (hm0 m0 le_rfl (n + 2) _ (by omega) le_rfl).trans ((hbounds m0 n (f0 + 1) (n + 2) (by omega) (by omega)).2 num _ le_rfl).1

/-- **C113** (`p > 0`, `recom`) If `p` is positive, `tilted_run` with `recom` finds an optimal score with a probability as close to 1 as wanted, whatever the score. -/
theorem C113_recom_positive (hs : RecomSetting G pop target eps k) (hμ : TreeChances G μ) (ha : a.Coherent) (hQ0 : IsPlan G pop target eps k a.plan) (hW : W a.plan = true)
    (hrun : RecomRun N d0 r fuel k G pop target eps μ W span cs) (hp : Chance N p) (h0 : 0 < p) (σ : Finset (Finset V) → A) (mx : Bool) (δ : ℚ) (hδ : 0 < δ) :
    ∃ n0, ∀ n, n0 ≤ n → ∃ f0, ∀ f, f0 ≤ f → ∃ m0, ∀ m, m0 ≤ m → ∀ body L, n + 1 < body → n * (f * (recomDraws d0 m G + 1)) ≤ L →
      1 - δ ≤ recomTilted N L r m span fuel G pop target eps cs a σ mx p n f body (FoundBestPlan (recomClass G pop target eps k W a.plan) σ mx) :=
  (C113_recom_find_iff hs hμ ha hQ0 hW hrun hp σ mx).1.1
    (canClimb_of_pos h0 (recomClass_self hQ0) (fun _ hQ _ h => recom_closed hQ h) (recom_irr hQ0 hW)) δ hδ

/-- **C113** (long bursts, `recom`) -/
theorem C113_recom_long (hs : RecomSetting G pop target eps k) (hμ : TreeChances G μ) (ha : a.Coherent) (hQ0 : IsPlan G pop target eps k a.plan) (hW : W a.plan = true)
    (hrun : RecomRun N d0 r fuel k G pop target eps μ W span cs) (hp : Chance N p) (h0 : 0 < p) (σ : Finset (Finset V) → A) (mx : Bool) (n : ℕ)
    (hn : (recomClass G pop target eps k W a.plan).card ≤ n + 1) (δ : ℚ) (hδ : 0 < δ) :
    ∃ num0, ∀ num, num0 ≤ num → ∃ f0, ∀ f, f0 ≤ f → ∃ m0, ∀ m, m0 ≤ m → ∀ body L, n + 1 < body → num * (n * (f * (recomDraws d0 m G + 1))) ≤ L →
      1 - δ ≤ recomTiltedBursts N L r m span fuel G pop target eps cs a σ mx p n num f body (FoundBestPlan (recomClass G pop target eps k W a.plan) σ mx) :=
  ((C113_recom_find_iff hs hμ ha hQ0 hW hrun hp σ mx).2 n).1
    (canFindTilted_long (keptKernel_isKernel hs hμ hQ0 hW) h0 hp.2.1 (recom_rel hs hμ hQ0 hW) (recom_irr hQ0 hW) (recomClass_self hQ0) hn) δ hδ

end recom

/-! ### Examples -/

/-- on the path of four nodes with the two peaks `0111` and `0001`, a run with `p = 1/2` finds the higher one -/
example (δ : ℚ) (hδ : 0 < δ) : ∃ n0 : ℕ, ∀ n, n0 ≤ n → ∃ f0 : ℕ, ∀ f, f0 ≤ f →
    1 - δ ≤ tiltedRun 2 (n * (f * 2)) (slowMove 2 walkPath) (chainAt walkA noneEmpty).isValid walkA twoPeaks true (1 / 2) n f (n + 2) (FoundBest walkPlans twoPeaks true) := by
  obtain ⟨n0, h⟩ := C113_slow_positive walkPath noneEmpty walkA walkPlans twoPeaks true walk_fromA (p := 1 / 2) (by norm_num) (by norm_num) δ hδ
  refine ⟨n0, fun n hn => ?_⟩
  obtain ⟨f0, hf0⟩ := h n hn
  exact ⟨f0, fun f hf => hf0 f hf 2 (by decide) (by decide +kernel) ⟨by norm_num, by norm_num, 1, by norm_num⟩ _ (chainAt_decides walkA noneEmpty) _ _ (by omega) le_rfl⟩

/-- with `p = 0` it cannot leave the lower one -/
example : ¬ CanClimb walkPlans (FlipMove walkPath noneEmpty) twoPeaks true 0 walkA.mapping.get? := by
  intro h
  have hstuck : ∀ m, Relation.ReflTransGen (TiltMove (FlipMove walkPath noneEmpty) twoPeaks true 0) walkA.mapping.get? m → m = walkA.mapping.get? := by
    intro m h
    induction h with
    | refl => rfl
    | tail _ h ih =>
      subst ih
      obtain ⟨⟨x, hx, rfl⟩, h | h⟩ := h
      · have : ∀ x ∈ allowedPairs walkPath walkA.mapping.get? noneEmpty, ¬ isImprovement true (twoPeaks (moved walkA.mapping.get? x.1 (walkA.mapping.get? x.2)))
            (twoPeaks walkA.mapping.get?) = true := by decide +kernel
        exact absurd h (this x hx)
      · exact absurd h (lt_irrefl _)
  obtain ⟨y, hy, hr⟩ := h _ .refl
  rw [hstuck y hr] at hy
  exact absurd hy (by decide +kernel)

/-- two steps with `p = 1/2`: from `0111` to `0011` with probability 1/2, and then on to `0001` with probability 1/2 -/
example : burstsMean walkPlans (tiltRate walkPlans (flipKernel walkPath noneEmpty (fun _ _ => 1)) (tiltChance twoPeaks true (1 / 2))) 2 twoPeaks true 1
    (isIn (IsOptimal walkPlans twoPeaks true)) walkA.mapping.get? = 1 / 4 := by
  decide +kernel

/-- bursts of three plans with `p = 1/2` find it as well -/
example (δ : ℚ) (hδ : 0 < δ) : ∃ num0 : ℕ, ∀ num, num0 ≤ num → ∃ f0 : ℕ, ∀ f, f0 ≤ f →
    1 - δ ≤ tiltedBursts 2 (num * (2 * (f * 2))) (slowMove 2 walkPath) (chainAt walkA noneEmpty).isValid walkA twoPeaks true (1 / 2) 2 num f 4 (FoundBest walkPlans twoPeaks true) := by
  obtain ⟨num0, h⟩ := C113_slow_long walkPath noneEmpty walkA walkPlans twoPeaks true walk_fromA (p := 1 / 2) (by norm_num) (by norm_num) 2 (by decide +kernel) δ hδ
  refine ⟨num0, fun num hn => ?_⟩
  obtain ⟨f0, hf0⟩ := h num hn
  exact ⟨f0, fun f hf => hf0 f hf 2 (by decide) (by decide +kernel) ⟨by norm_num, by norm_num, 1, by norm_num⟩ _ (chainAt_decides walkA noneEmpty) _ _ (by omega) le_rfl⟩

/-- on the path of five nodes with the plans `00111` and `00011` -/
example (δ : ℚ) (hδ : 0 < δ) : ∃ n0 : ℕ, ∀ n, n0 ≤ n → ∃ f0 : ℕ, ∀ f, f0 ≤ f →
    1 - δ ≤ tiltedRun 2 (n * (f * 3)) (biMove 2 biPath) (chainAt biC twoEach).isValid biC (fun m => districtSize biPath m 0) true (1 / 2) n f (n + 2)
      (FoundBest {biC.mapping.get?, biD.mapping.get?} (fun m => districtSize biPath m 0) true) := by
  obtain ⟨n0, h⟩ := C113_bi_positive biPath twoEach biC _ (fun m => districtSize biPath m 0) true bi_flipSetting (by unfold Anchored; decide +kernel) (p := 1 / 2)
    (by norm_num) (by norm_num) δ hδ
  refine ⟨n0, fun n hn => ?_⟩
  obtain ⟨f0, hf0⟩ := h n hn
  exact ⟨f0, fun f hf => hf0 f hf 2 (by decide) bi_divides ⟨by norm_num, by norm_num, 1, by norm_num⟩ _ (chainAt_decides biC twoEach) _ _ (by omega) le_rfl⟩

/-- on the graph of five nodes with two plans, with `recom` -/
example (δ : ℚ) (hδ : 0 < δ) (N : ℕ) (hN : EvenTape kiteGraph N) : ∃ n0, ∀ n, n0 ≤ n → ∃ f0, ∀ f, f0 ≤ f → ∃ m0, ∀ m, m0 ≤ m →
    ∀ L, n * (f * (recomDraws 1 m kiteGraph + 1)) ≤ L →
      1 - δ ≤ recomTilted (P := Fin 2) N L 1 m (uniformSpan N) 1 kiteGraph kitePop 3 0 [] kiteA (fun Q => if Q = kiteB.plan then 1 else 0) true 1 n f (n + 2)
        (FoundBestPlan (recomClass kiteGraph kitePop 3 0 2 (fun _ => true) kiteA.plan) (fun Q => if Q = kiteB.plan then 1 else 0) true) := by
  have hrun : RecomRun (P := Fin 2) N 1 1 1 2 kiteGraph kitePop 3 0 (uniformLaw kiteGraph) (fun _ => true) (uniformSpan N) [] :=
    ⟨hN, Nat.one_pos, Nat.one_pos, uniform_treeLaw kite_wf hN.1 hN.2, decides_nil⟩
  obtain ⟨n0, h⟩ := C113_recom_positive kite_setting (treeChances_uniform kite_wf) kite_setup.1.coherent kite_isPlan.1 rfl hrun
    ⟨zero_le_one, le_rfl, N, (div_self (by exact_mod_cast hN.1.ne')).symm⟩ one_pos (fun Q => if Q = kiteB.plan then 1 else 0) true δ hδ
  refine ⟨n0, fun n hn => ?_⟩
  obtain ⟨f0, hf0⟩ := h n hn
  refine ⟨f0, fun f hf => ?_⟩
  obtain ⟨m0, hm0⟩ := hf0 f hf
  exact ⟨m0, fun m hm L hL => hm0 m hm (n + 2) L (by omega) hL⟩

end GC

import Verif.Props.VarBursts
import Verif.Props.BurstRecom

/-!
# C122: when `variable_length_short_bursts` of `recom` find the best plan

`SingleMetricOptimizer.variable_length_short_bursts` (optimization/optimization.py:509-570) with `always_accept` and `recom` (proposals/tree_proposals.py:36-146), in the
setting of C105 and C110.  With `stuck_buffer ≥ 1` the bursts keep their length 2 (C121), so that the best plan is found exactly if single steps of `recom` to plans that are not worse
lead there.  With two districts they always do.  With `stuck_buffer ≤ 0` the length doubles after every burst, and the best plan is found from everywhere.
-/

set_option linter.unusedSectionVars false
set_option autoImplicit false

namespace GC

variable {V P : Type} [LinearOrder V] [LinearOrder P] {A : Type} [LinearOrder A]

/-- a single step of `recom` to a plan whose score is at least as good -/
def ClimbPlan (G : Graph V) (pop : V → ℚ) (target eps : ℚ) (k : ℕ) (W : Finset (Finset V) → Bool) (σ : Finset (Finset V) → A) (mx : Bool) (Q X : Finset (Finset V)) : Prop :=
  RecomStep G pop target eps k W Q X ∧ isImprovement mx (σ X) (σ Q) = true

/-- The probability that `variable_length_short_bursts` with `steps` steps ends without an exception and with a best plan and score that satisfy `T`, with at most `f`
proposals in each step and at most `m` attempts in each proposal. -/
noncomputable def recomVar (N L r m : ℕ) (span : Graph V → M Tape (WTree V)) (fuel : ℕ) (G : Graph V) (pop : V → ℚ) (target eps : ℚ)
    (cs : List (Constraint Tape (PlanState V P))) (a : Assignment V P) (σ : Finset (Finset V) → A) (mx : Bool) (steps : ℕ) (stuckBuffer : ℤ) (f body bursts : ℕ)
    (T : PlanState V P × A → Prop) [DecidablePred T] : ℚ :=
  avg N L (fun t => endsWith T ((recomOptimizer N r m span fuel G pop target eps cs a σ mx).variableLength alwaysAccept (steps : ℕ) stuckBuffer f body bursts t))

section runs
variable {N r m d0 fuel k n num f body L : ℕ} {G : Graph V} {pop : V → ℚ} {target eps : ℚ} {span : Graph V → M Tape (WTree V)} {μ : Finset V → Finset (V × V) → ℚ}
  {W : Finset (Finset V) → Bool} {Q0 : Finset (Finset V)} {cs : List (Constraint Tape (PlanState V P))} {a : Assignment V P} {σ : Finset (Finset V) → A} {mx : Bool}

theorem climbPlan_iff {Q X : Finset (Finset V)} :
    Relation.ReflTransGen (BurstTo (RecomStep G pop target eps k W) 1 σ mx) Q X ↔ Relation.ReflTransGen (ClimbPlan G pop target eps k W σ mx) Q X := by
  constructor
  · intro h
    induction h with
    | refl => exact .refl
    | tail _ h ih =>
      obtain ⟨l, h1, h2, rfl⟩ := h
      obtain ⟨z, rfl⟩ := List.length_eq_one_iff.1 h2
      show Relation.ReflTransGen _ _ (if _ then _ else _)
      split_ifs with hz
      · exact ih.tail ⟨(List.isChain_cons_cons.1 h1).1, hz⟩
      · exact ih
  · intro h
    induction h with
    | refl => exact .refl
    | @tail b c _ h ih =>
      refine ih.tail ⟨[c], .cons_cons h.1 (.singleton _), rfl, ?_⟩
      show (if _ then _ else _) = _
      rw [if_pos h.2]

theorem canFindPlan_climb : CanFindPlan G pop target eps k W σ mx 1 Q0 ↔
    ∀ Q, Relation.ReflTransGen (ClimbPlan G pop target eps k W σ mx) Q0 Q →
      ∃ Q', IsOptimal (recomClass G pop target eps k W Q0) σ mx Q' ∧ Relation.ReflTransGen (ClimbPlan G pop target eps k W σ mx) Q Q' := by
  unfold CanFindPlan
  simp only [climbPlan_iff]

/-- the best plan at the end of a run whose bursts have length two -/
theorem recom_varBursts (hs : RecomSetting G pop target eps k) (hQ0 : IsPlan G pop target eps k a.plan) (hW : W a.plan = true) (ha : a.Coherent)
    (hrun : RecomRun N d0 r fuel k G pop target eps μ W span cs) (T : PlanState V P × A → Prop) [DecidablePred T] {stuckBuffer : ℤ} (hsb : 1 ≤ stuckBuffer)
    (steps f body bursts : ℕ) (hf : 0 < f) (hbody : 2 < body) (hbursts : steps < bursts) :
    recomVar N L r m span fuel G pop target eps cs a σ mx steps stuckBuffer f body bursts T =
      recomBursts N L r m span fuel G pop target eps cs a σ mx 1 (steps / 2) f body T := by
  obtain ⟨f, rfl⟩ : ∃ j, f = j + 1 := ⟨f - 1, by omega⟩
  obtain ⟨body, rfl⟩ : ∃ j, body = j + 3 := ⟨body - 3, by omega⟩
  have hO := optLaw_recom hs hQ0 hW hrun m a σ mx
  have hg := hO.stepsOn (f + 1)
  set o := recomOptimizer N r m span fuel G pop target eps cs a σ mx with ho
  have hdet : ∀ (x : PlanState V P) (s : Tape) a' s', o.score x s = (.ok a', s') → a' = σ x.plan.plan := by
    intro x s a' s' h
    simp only [ho, recomOptimizer, Prod.mk.injEq, Except.ok.injEq] at h
    exact h.1.symm
  have hgood : GoodState G pop target eps k o.initial ∧ o.initial.plan.plan ∈ recomClass G pop target eps k W a.plan := ⟨⟨ha, hQ0⟩, recomClass_self hQ0⟩
  unfold recomVar recomBursts
  refine avg_congr N L (fun t => ?_)
  rw [← ho]
  unfold OptCfg.variableLength OptCfg.shortBursts
  rw [hO.score o.initial hgood t]
  simp only [endsWith]
  rcases Nat.even_or_odd' steps with ⟨num, hk | hk⟩
  · rw [show steps / 2 = num by omega, hk, varBursts_even hg hdet body hsb num bursts (by omega) (b := (o.initial, σ o.initial.plan.plan)) hgood rfl t]
  · rw [show steps / 2 = num by omega, hk,
      varBursts_odd hg hdet body (fun x hx s => ⟨hO.score x hx s, hO.consumer x hx s, hO.valid x hx s⟩) hsb num bursts (by omega)
        (b := (o.initial, σ o.initial.plan.plan)) hgood rfl t]
    split_ifs with h
    · unfold runThen
      have h' : (o.bursts alwaysAccept ((1 + 1 : ℕ) : ℤ) (f + 1) (body + 3) num (o.initial, σ o.initial.plan.plan) t).status = some (.ok ()) := h
      rw [h']
      rfl
    · rfl

theorem recom_posReach (hs : RecomSetting G pop target eps k) (hμ : TreeChances G μ) (hQ0 : IsPlan G pop target eps k Q0) (hW : W Q0 = true) {Q X : Finset (Finset V)}
    (hQ : Q ∈ recomClass G pop target eps k W Q0) (hX : X ∈ recomClass G pop target eps k W Q0) :
    Relation.ReflTransGen (PosStep (recomClass G pop target eps k W Q0) (keptKernel G pop target eps k μ W)) Q X := by
  have h : Relation.ReflTransGen (RecomStep G pop target eps k W) Q X := by
    have h : AllowedReach G pop target eps k W Q X := ((mem_recomClass.1 hQ).2.symm' hQ0 hW).1.trans (mem_recomClass.1 hX).2
    exact Relation.ReflTransGen.lift id (fun u v huv => ⟨.inr huv.1, huv.2⟩) _ _ h
  have hmem : ∀ Z, Relation.ReflTransGen (RecomStep G pop target eps k W) Q Z → Z ∈ recomClass G pop target eps k W Q0 := by
    intro Z hZ
    induction hZ with
    | refl => exact hQ
    | tail _ h ih => exact recom_closed ih h
  clear hX
  induction h with
  | refl => exact .refl
  | tail h1 h ih => exact ih.tail ((recom_posStep hs hμ hQ0 hW (hmem _ h1)).2 h)

/-- one long burst finds an optimal plan from everywhere -/
theorem recom_long (hs : RecomSetting G pop target eps k) (hμ : TreeChances G μ) (hQ0 : IsPlan G pop target eps k Q0) (hW : W Q0 = true) {δ : ℚ} (hδ : 0 < δ) :
    ∃ n0 : ℕ, ∀ Q ∈ recomClass G pop target eps k W Q0, ∀ n, n0 ≤ n → 1 - δ ≤
      burstsMean (recomClass G pop target eps k W Q0) (keptKernel G pop target eps k μ W) n σ mx 1 (isIn (IsOptimal (recomClass G pop target eps k W Q0) σ mx)) Q := by
  have hK := keptKernel_isKernel hs hμ hQ0 hW
  obtain ⟨o, ho, hopt⟩ := exists_optimal ⟨Q0, recomClass_self (W := W) hQ0⟩ σ mx
  have hex : ∀ Q ∈ recomClass G pop target eps k W Q0, ∃ n0 : ℕ, ∀ n, n0 ≤ n → 1 - δ ≤
      burstsMean (recomClass G pop target eps k W Q0) (keptKernel G pop target eps k μ W) n σ mx 1 (isIn (IsOptimal (recomClass G pop target eps k W Q0) σ mx)) Q := by
    intro Q hQ
    refine (run_find_iff hK hQ (fun x hx y hxy => ?_)).1 (fun x hx => ⟨o, hopt, recom_posReach hs hμ hQ0 hW (reached_mem hQ hx) ho⟩) δ hδ
    rcases hxy.cases_head with rfl | ⟨c, hc, -⟩
    · exact ⟨x, hx, .refl⟩
    · exact ⟨o, hopt, recom_posReach hs hμ hQ0 hW (reached_mem hc.1 hxy) ho⟩
  choose! g hg using hex
  exact ⟨(recomClass G pop target eps k W Q0).sup g, fun Q hQ n hn => hg Q hQ n ((Finset.le_sup hQ).trans hn)⟩

/-- a run whose bursts double -/
theorem recom_growing (hs : RecomSetting G pop target eps k) (hμ : TreeChances G μ) (hQ0 : IsPlan G pop target eps k a.plan) (hW : W a.plan = true) (ha : a.Coherent) {c d : ℚ}
    (hb : RunBounds G pop target eps k μ W a.plan c d) (hrun : RecomRun N d0 r fuel k G pop target eps μ W span cs) {steps : ℕ} {ns : List ℕ} (p1 : GrowPlan ns 2 steps)
    (p2 : ns.length ≤ steps) (p3 : ns.sum ≤ steps) (p4 : ∀ n ∈ ns, n < steps) {stuckBuffer : ℤ} (hsb : stuckBuffer ≤ 0) {bursts : ℕ} (hf : 0 < f) (hbody : steps < body)
    (hbursts : steps < bursts) (hL : steps * (f * recomDraws d0 m G) ≤ L) :
    roundsDone c d r m f ^ ns.sum * lensMean (recomClass G pop target eps k W a.plan) (keptKernel G pop target eps k μ W) σ mx ns
        (isIn (IsOptimal (recomClass G pop target eps k W a.plan) σ mx)) a.plan ≤
      recomVar N L r m span fuel G pop target eps cs a σ mx steps stuckBuffer f body bursts (FoundBestPlan (recomClass G pop target eps k W a.plan) σ mx) := by
  obtain ⟨f, rfl⟩ : ∃ j, f = j + 1 := ⟨f - 1, by omega⟩
  have hN := hrun.even.1
  have hO := optLaw_recom hs hQ0 hW hrun m a σ mx
  set o := recomOptimizer N r m span fuel G pop target eps cs a σ mx with ho
  have hself := recomClass_self (W := W) hQ0
  have hgood : GoodState G pop target eps k o.initial ∧ o.initial.plan.plan ∈ recomClass G pop target eps k W a.plan := ⟨⟨ha, hQ0⟩, hself⟩
  have key := hO.growing hN f (hO.stepsAll (f + 1)) (numSteps := (steps : ℕ)) hsb
    (Φ := fun b _ => if FoundBestPlan (recomClass G pop target eps k W a.plan) σ mx b then 1 else 0) (ψ := isIn (IsOptimal (recomClass G pop target eps k W a.plan) σ mx)) 0
    (fun b hb hbs L' _ => by
      rw [avg_const hN]
      unfold isIn
      by_cases hTb : FoundBestPlan (recomClass G pop target eps k W a.plan) σ mx b
      · rw [if_pos hTb, if_pos ((foundBestPlan_iff b hbs).1 hTb)]
      · rw [if_neg hTb, if_neg (fun e => hTb ((foundBestPlan_iff b hbs).2 e))])
    body ns 2 steps bursts p1 (by omega) (fun n hn => by have := p4 n hn; omega)
    (o.initial, σ o.initial.plan.plan) 0 0 hgood rfl (by simp) L ((Nat.mul_le_mul_right _ p3).trans hL)
  have hstart : recomVar N L r m span fuel G pop target eps cs a σ mx steps stuckBuffer (f + 1) body bursts (FoundBestPlan (recomClass G pop target eps k W a.plan) σ mx) =
      lensMean (recomClass G pop target eps k W a.plan) (triedKernel (recomKernelIn r m G pop target eps μ)
        (fun Q => ∑ X ∈ (plans G pop target eps k).filter (fun X => ¬ W X = true), recomKernelIn r m G pop target eps μ Q X) (f + 1)) σ mx ns
        (isIn (IsOptimal (recomClass G pop target eps k W a.plan) σ mx)) a.plan := by
    refine Eq.trans (avg_congr N L (fun t => ?_)) key
    rw [← ho]
    unfold OptCfg.variableLength
    rw [hO.score o.initial hgood t]
    rfl
  rw [hstart]
  have hstep := fun Q hQ X hX => step_bounds hs hμ hQ0 hW hb.c0 hb.c1 hb.attempt hb.refused r m (f + 1) (Q := Q) (X := X) hQ hX
  exact (lensMean_dominated (σ := σ) (mx := mx) (S := recomClass G pop target eps k W a.plan) (K := keptKernel G pop target eps k μ W)
    (roundsDone_nonneg hb.c0 hb.c1 hb.d0 hb.d1 r m (f + 1)) (fun Q hQ X hX => (hstep Q hQ X hX).1) (fun Q hQ X hX => (hstep Q hQ X hX).2.1)
    (fun Q hQ X hX => (hstep Q hQ X hX).2.2) (ψ := isIn (IsOptimal (recomClass G pop target eps k W a.plan) σ mx)) (fun m _ => isIn_nonneg m) ns a.plan hself).2

end runs

/-! ### The theorems -/

section theorems
variable {N r d0 fuel k : ℕ} {G : Graph V} {pop : V → ℚ} {target eps : ℚ} {span : Graph V → M Tape (WTree V)} {μ : Finset V → Finset (V × V) → ℚ}
  {W : Finset (Finset V) → Bool} {cs : List (Constraint Tape (PlanState V P))} {a : Assignment V P}

/-- **C122** (when it finds the best plan) With `stuck_buffer ≥ 1` and enough steps, then enough proposals in each step, then enough attempts in each proposal,
`variable_length_short_bursts` of `recom` finds an optimal score with a probability as close to 1 as wanted, if and only if from every plan that single steps of `recom` without a loss can
get to such steps can get to an optimal plan. -/
theorem C122_find_iff (hs : RecomSetting G pop target eps k) (hμ : TreeChances G μ) (ha : a.Coherent) (hQ0 : IsPlan G pop target eps k a.plan) (hW : W a.plan = true)
    (hrun : RecomRun N d0 r fuel k G pop target eps μ W span cs) (σ : Finset (Finset V) → A) (mx : Bool) (stuckBuffer : ℤ) (hsb : 1 ≤ stuckBuffer) :
    (∀ Q, Relation.ReflTransGen (ClimbPlan G pop target eps k W σ mx) a.plan Q →
      ∃ Q', IsOptimal (recomClass G pop target eps k W a.plan) σ mx Q' ∧ Relation.ReflTransGen (ClimbPlan G pop target eps k W σ mx) Q Q') ↔
    ∀ δ : ℚ, 0 < δ → ∃ s0, ∀ steps, s0 ≤ steps → ∃ f0, ∀ f, f0 ≤ f → ∃ m0, ∀ m, m0 ≤ m → ∀ body bursts L, 2 < body → steps < bursts →
      steps / 2 * (f * recomDraws d0 m G) ≤ L →
        1 - δ ≤ recomVar N L r m span fuel G pop target eps cs a σ mx steps stuckBuffer f body bursts (FoundBestPlan (recomClass G pop target eps k W a.plan) σ mx) := by
  rw [← canFindPlan_climb, C110_find_iff hs hμ ha hQ0 hW hrun σ mx 1]
  refine forall_congr' (fun δ => imp_congr_right (fun _ => ⟨?_, ?_⟩))
  · rintro ⟨num0, h⟩
    refine ⟨2 * num0, fun steps hst => ?_⟩
    obtain ⟨f0, hf0⟩ := h (steps / 2) (by omega)
    refine ⟨f0 + 1, fun f hf => ?_⟩
    obtain ⟨m0, hm0⟩ := hf0 f (by omega)
    refine ⟨m0, fun m hm body bursts L hbody hbursts hL => ?_⟩
    rw [recom_varBursts hs hQ0 hW ha hrun _ hsb steps f body bursts (by omega) hbody hbursts]
    exact hm0 m hm body L (by omega) (by rwa [one_mul])
  · rintro ⟨s0, h⟩
    refine ⟨s0, fun num hnum => ?_⟩
    obtain ⟨f0, hf0⟩ := h (2 * num) (by omega)
    refine ⟨f0 + 1, fun f hf => ?_⟩
    obtain ⟨m0, hm0⟩ := hf0 f (by omega)
    refine ⟨m0, fun m hm body L hbody hL => ?_⟩
    have e : 2 * num / 2 = num := by omega
    have := hm0 m hm body (2 * num + 1) L (by omega) (by omega) (by rw [e]; rwa [one_mul] at hL)
    rwa [recom_varBursts hs hQ0 hW ha hrun _ hsb (2 * num) f body (2 * num + 1) (by omega) (by omega) (by omega), e] at this

/-- **C122** (the trap) With `stuck_buffer ≥ 1`: if all other plans that a single step of `recom` can get to from the initial plan have a worse score, no other plan is ever found,
with any number of steps. -/
theorem C122_trap (hs : RecomSetting G pop target eps k) (hμ : TreeChances G μ) (ha : a.Coherent) (hQ0 : IsPlan G pop target eps k a.plan) (hW : W a.plan = true)
    (hrun : RecomRun N d0 r fuel k G pop target eps μ W span cs) (σ : Finset (Finset V) → A) (mx : Bool)
    (hstuck : ∀ Q, IsPlan G pop target eps k Q → W Q = true → Exchange a.plan Q → if mx then σ Q < σ a.plan else σ a.plan < σ Q)
    (stuckBuffer : ℤ) (hsb : 1 ≤ stuckBuffer) (steps m f body bursts L : ℕ) (hf : 0 < f) (hbody : 2 < body) (hbursts : steps < bursts)
    (hL : steps / 2 * (f * recomDraws d0 m G) ≤ L) :
    recomVar N L r m span fuel G pop target eps cs a σ mx steps stuckBuffer f body bursts (fun b => b.1.plan.plan ≠ a.plan) = 0 := by
  rw [recom_varBursts hs hQ0 hW ha hrun _ hsb steps f body bursts hf hbody hbursts]
  refine C110_trap hs hμ ha hQ0 hW hrun σ mx 1 (fun l h1 h2 Q hQ hne => ?_) (steps / 2) m f body L hf (by omega) (by rwa [one_mul])
  obtain ⟨z, rfl⟩ := List.length_eq_one_iff.1 h2
  obtain rfl := List.mem_singleton.1 hQ
  obtain ⟨h | h, h3, h4⟩ := (List.isChain_cons_cons.1 h1).1
  · exact absurd h hne
  · have := hstuck Q h3 h4 h
    cases mx <;> simpa [isImprovement] using this

/-- **C122** (`stuck_buffer ≤ 0`) With `stuck_buffer=0` the bursts do get longer, and the best plan is found from every initial plan and for every score. -/
theorem C122_grows (hs : RecomSetting G pop target eps k) (hμ : TreeChances G μ) (ha : a.Coherent) (hQ0 : IsPlan G pop target eps k a.plan) (hW : W a.plan = true)
    (hrun : RecomRun N d0 r fuel k G pop target eps μ W span cs) (σ : Finset (Finset V) → A) (mx : Bool) (stuckBuffer : ℤ) (hsb : stuckBuffer ≤ 0) (δ : ℚ) (hδ : 0 < δ) :
    ∃ s0, ∀ steps, s0 ≤ steps → ∃ f0, ∀ f, f0 ≤ f → ∃ m0, ∀ m, m0 ≤ m → ∀ body bursts L, steps < body → steps < bursts → steps * (f * recomDraws d0 m G) ≤ L →
      1 - δ ≤ recomVar N L r m span fuel G pop target eps cs a σ mx steps stuckBuffer f body bursts (FoundBestPlan (recomClass G pop target eps k W a.plan) σ mx) := by
  obtain ⟨c, d, hb⟩ := exists_runBounds hs hμ hQ0 hW
  have hδ' : 0 < min (δ / 2) 1 := lt_min (by linarith) one_pos
  obtain ⟨n0, h0⟩ := recom_long (σ := σ) (mx := mx) hs hμ hQ0 hW hδ'
  refine ⟨3 * (n0 + 2), fun steps hk => ?_⟩
  obtain ⟨ns, p1, p2, p3, p4⟩ := exists_growPlan steps 2 (by omega)
  obtain ⟨n1, hn1, hn1'⟩ := growPlan_long (B := n0 + 2) ns 2 steps (by omega) (by omega) p1
  obtain ⟨f0, hf0⟩ := enough_rounds hb.c0 hb.c1 hb.d0 hb.d1 ns.sum hδ'
  refine ⟨f0 + 1, fun f hf => ?_⟩
  obtain ⟨m0, hm0⟩ := hf0 f (by omega) r hrun.repeats
  refine ⟨m0, fun m hm body bursts L hbody hbursts hL => ?_⟩
  have h1 := recom_growing (σ := σ) (mx := mx) hs hμ hQ0 hW ha hb hrun p1 p2 p3 p4 hsb (by omega : 0 < f) hbody hbursts hL
  have h2 := lensMean_found (keptKernel_isKernel hs hμ hQ0 hW) h0 ns ⟨n1, hn1, by omega⟩ _ (recomClass_self hQ0)
  have h3 := hm0 m hm
  refine le_trans ?_ h1
  have h4 : min (δ / 2) 1 ≤ δ / 2 := min_le_left _ _
  have h5 : min (δ / 2) 1 ≤ 1 := min_le_right _ _
  have h6 := mul_le_mul h3 h2 (by linarith) (le_trans (by linarith) h3)
  have h7 : 0 ≤ min (δ / 2) 1 * min (δ / 2) 1 := mul_self_nonneg _
  nlinarith

/-- **C122** (two districts) With two districts every allowed plan can be drawn in each step, so the best plan is found with every `stuck_buffer`. -/
theorem C122_two_districts (hs : RecomSetting G pop target eps 2) (hμ : TreeChances G μ) (ha : a.Coherent) (hQ0 : IsPlan G pop target eps 2 a.plan) (hW : W a.plan = true)
    (hrun : RecomRun N d0 r fuel 2 G pop target eps μ W span cs) (σ : Finset (Finset V) → A) (mx : Bool) (stuckBuffer : ℤ) {S : Finset (Finset (Finset V))}
    (hS : ∀ Q, Q ∈ S ↔ IsPlan G pop target eps 2 Q ∧ W Q = true) (δ : ℚ) (hδ : 0 < δ) :
    ∃ s0, ∀ steps, s0 ≤ steps → ∃ f0, ∀ f, f0 ≤ f → ∃ m0, ∀ m, m0 ≤ m → ∀ body bursts L, steps < body → 2 < body → steps < bursts → steps * (f * recomDraws d0 m G) ≤ L →
      1 - δ ≤ recomVar N L r m span fuel G pop target eps cs a σ mx steps stuckBuffer f body bursts (FoundBestPlan S σ mx) := by
  obtain rfl : S = recomClass G pop target eps 2 W a.plan := by
    ext Q
    rw [hS, two_class hQ0 hW, Finset.mem_filter, mem_plans]
  rcases lt_or_ge 0 stuckBuffer with hsb | hsb
  · have hself := recomClass_self (W := W) hQ0
    obtain ⟨o, ho, hopt⟩ := exists_optimal ⟨a.plan, hself⟩ σ mx
    have hmem : ∀ Q, Relation.ReflTransGen (ClimbPlan G pop target eps 2 W σ mx) a.plan Q → Q ∈ recomClass G pop target eps 2 W a.plan := by
      intro Q h
      induction h with
      | refl => exact hself
      | tail _ h ih => exact recom_closed ih h.1
    have hclimb : ∀ Q, Relation.ReflTransGen (ClimbPlan G pop target eps 2 W σ mx) a.plan Q → ClimbPlan G pop target eps 2 W σ mx Q o := by
      intro Q hQ
      refine ⟨(recom_posStep hs hμ hQ0 hW (hmem Q hQ)).1 ⟨hmem Q hQ, ho, ?_⟩, hopt Q (hmem Q hQ)⟩
      have := keptKernel_self_pos hs hμ hQ0 hW ho
      rwa [two_kept hs hμ (mem_recomClass.1 ho).1, ← two_kept (Q := Q) hs hμ (mem_recomClass.1 (hmem Q hQ)).1] at this
    obtain ⟨s0, h⟩ := (C122_find_iff hs hμ ha hQ0 hW hrun σ mx stuckBuffer (by omega)).1 (fun Q hQ => ⟨o, hopt, .single (hclimb Q hQ)⟩) δ hδ
    refine ⟨s0, fun steps hst => ?_⟩
    obtain ⟨f0, hf0⟩ := h steps hst
    refine ⟨f0, fun f hf => ?_⟩
    obtain ⟨m0, hm0⟩ := hf0 f hf
    exact ⟨m0, fun m hm body bursts L _ hb2 hbursts hL => hm0 m hm body bursts L hb2 hbursts ((Nat.mul_le_mul_right _ (Nat.div_le_self _ _)).trans hL)⟩
  · obtain ⟨s0, h⟩ := C122_grows hs hμ ha hQ0 hW hrun σ mx stuckBuffer hsb δ hδ
    refine ⟨s0, fun steps hst => ?_⟩
    obtain ⟨f0, hf0⟩ := h steps hst
    refine ⟨f0, fun f hf => ?_⟩
    obtain ⟨m0, hm0⟩ := hf0 f hf
    exact ⟨m0, fun m hm body bursts L hb1 _ hbursts hL => hm0 m hm body bursts L hb1 hbursts hL⟩

end theorems

/-! ### Three districts on a path -/

/-- seven nodes in a row -/
def rowGraph : Graph (Fin 7) := ⟨Finset.univ, {(0, 1), (1, 2), (2, 3), (3, 4), (4, 5), (5, 6)}⟩

/-- districts `{0, 1, 2}`, `{3, 4}` and `{5, 6}` -/
def rowA : Assignment (Fin 7) (Fin 3) :=
  ⟨⟨[(0, {0, 1, 2}), (1, {3, 4}), (2, {5, 6})]⟩, ⟨[(0, 0), (1, 0), (2, 0), (3, 1), (4, 1), (5, 2), (6, 2)]⟩⟩

/-- the plan in the middle -/
def rowMid : Finset (Finset (Fin 7)) := {{0, 1}, {2, 3, 4}, {5, 6}}

/-- the plan at the end -/
def rowEnd : Finset (Finset (Fin 7)) := {{0, 1}, {2, 3}, {4, 5, 6}}

/-- the end is best, and the start better than the middle -/
def rowScore (Q : Finset (Finset (Fin 7))) : ℕ := if Q = rowEnd then 2 else if Q = rowMid then 0 else 1

theorem row_wf : rowGraph.WF := ⟨by decide, by decide, by decide⟩

theorem row_connected (s : Finset (Fin 7)) (hs : nxIsConnected (rowGraph.subgraph s) = .ok true) : ConnectedOn rowGraph s := by
  rw [nxIsConnected_true (row_wf.subgraph s)] at hs
  exact (connectedOn_subgraph (Finset.subset_univ s)).1 hs

theorem row_planA : rowA.plan = {{0, 1, 2}, {3, 4}, {5, 6}} := by decide +kernel

theorem row_isPlan : IsPlan rowGraph (fun _ => 1) (7 / 3) (2 / 7) 3 rowA.plan ∧ IsPlan rowGraph (fun _ => 1) (7 / 3) (2 / 7) 3 rowMid ∧
    IsPlan rowGraph (fun _ => 1) (7 / 3) (2 / 7) 3 rowEnd := by
  rw [row_planA]
  refine ⟨⟨⟨by decide +kernel, by decide +kernel, by decide +kernel⟩, by decide +kernel, fun X hX => ⟨row_connected X ?_, ?_⟩⟩,
    ⟨⟨by decide +kernel, by decide +kernel, by decide +kernel⟩, by decide +kernel, fun X hX => ⟨row_connected X ?_, ?_⟩⟩,
    ⟨⟨by decide +kernel, by decide +kernel, by decide +kernel⟩, by decide +kernel, fun X hX => ⟨row_connected X ?_, ?_⟩⟩⟩ <;> revert X <;> decide +kernel

theorem row_setting : RecomSetting rowGraph (fun _ => 1) (7 / 3) (2 / 7) 3 :=
  setting_of_nodes row_wf (row_connected _ (by decide +kernel)) (by norm_num) (by decide +kernel)

theorem row_coherent : rowA.Coherent := by
  refine ⟨by unfold Dict.WF; decide, by unfold Dict.WF; decide, ?_, by decide⟩
  intro p s hs
  fin_cases p <;> cases hs <;> decide

/-- a constraint that allows these three plans -/
def rowOnly (Q : Finset (Finset (Fin 7))) : Bool := decide (Q = rowA.plan ∨ Q = rowMid ∨ Q = rowEnd)

/-- **C122** (three districts) Seven nodes in a row are divided into three districts of two or three nodes, and a constraint allows three plans, of which the best is two steps of `recom` away.
`variable_length_short_bursts` with `stuck_buffer ≥ 1` never finds it, however many steps it gets, and with `stuck_buffer=0` it does. -/
theorem C122_row : rowEnd ∈ recomClass rowGraph (fun _ => 1) (7 / 3) (2 / 7) 3 rowOnly rowA.plan ∧ rowScore rowA.plan < rowScore rowEnd ∧
    ∀ N, EvenTape rowGraph N →
      (∀ (stuckBuffer : ℤ) (steps m f body bursts L : ℕ), 1 ≤ stuckBuffer → 0 < f → 2 < body → steps < bursts → steps / 2 * (f * recomDraws 1 m rowGraph) ≤ L →
        recomVar (P := Fin 3) N L 1 m (uniformSpan N) 1 rowGraph (fun _ => 1) (7 / 3) (2 / 7) [planConstraint rowOnly] rowA rowScore true steps stuckBuffer f body bursts
          (fun b => b.1.plan.plan ≠ rowA.plan) = 0) ∧
      ∀ δ : ℚ, 0 < δ → ∃ s0, ∀ steps, s0 ≤ steps → ∃ f0, ∀ f, f0 ≤ f → ∃ m0, ∀ m, m0 ≤ m → ∀ body bursts L, steps < body → steps < bursts →
        steps * (f * recomDraws 1 m rowGraph) ≤ L →
          1 - δ ≤ recomVar (P := Fin 3) N L 1 m (uniformSpan N) 1 rowGraph (fun _ => 1) (7 / 3) (2 / 7) [planConstraint rowOnly] rowA rowScore true steps 0 f body bursts
            (FoundBestPlan (recomClass rowGraph (fun _ => 1) (7 / 3) (2 / 7) 3 rowOnly rowA.plan) rowScore true) := by
  have hA : rowOnly rowA.plan = true := by decide +kernel
  have e1 : Exchange rowA.plan rowMid := by decide +kernel
  have e2 : Exchange rowMid rowEnd := by decide +kernel
  have e3 : ¬ Exchange rowA.plan rowEnd := by decide +kernel
  refine ⟨recomClass_closed (recomClass_closed (recomClass_self row_isPlan.1) row_isPlan.2.1 (by decide +kernel) (.inr e1)) row_isPlan.2.2 (by decide +kernel) (.inr e2),
    by decide +kernel, fun N hN => ?_⟩
  have hrun : RecomRun (P := Fin 3) N 1 1 1 3 rowGraph (fun _ => 1) (7 / 3) (2 / 7) (uniformLaw rowGraph) rowOnly (uniformSpan N) [planConstraint rowOnly] :=
    ⟨hN, Nat.one_pos, Nat.one_pos, uniform_treeLaw row_wf hN.1 hN.2, decides_one _⟩
  refine ⟨fun sb steps m f body bursts L hsb hf hbody hbursts hL => ?_, fun δ hδ => ?_⟩
  · refine C122_trap row_setting (treeChances_uniform row_wf) row_coherent row_isPlan.1 hA hrun rowScore true (fun Q _ hQ hex => ?_) sb hsb steps m f body bursts L hf hbody hbursts hL
    rcases of_decide_eq_true hQ with rfl | rfl | rfl
    · exact absurd rfl hex.ne
    · decide +kernel
    · exact absurd hex e3
  · exact C122_grows row_setting (treeChances_uniform row_wf) row_coherent row_isPlan.1 hA hrun rowScore true 0 le_rfl δ hδ

example : EvenTape rowGraph (2 ^ 6).factorial := ⟨Nat.factorial_pos _, Nat.factorial_dvd_factorial (by decide)⟩

/-- on the graph of five nodes with two plans, the better one is found with every `stuck_buffer` -/
example (δ : ℚ) (hδ : 0 < δ) (stuckBuffer : ℤ) (N : ℕ) (hN : EvenTape kiteGraph N) : ∃ s0, ∀ steps, s0 ≤ steps → ∃ f0, ∀ f, f0 ≤ f → ∃ m0, ∀ m, m0 ≤ m →
    ∀ L, steps * (f * recomDraws 1 m kiteGraph) ≤ L →
      1 - δ ≤ recomVar (P := Fin 2) N L 1 m (uniformSpan N) 1 kiteGraph kitePop 3 0 [] kiteA (fun Q => if Q = kiteB.plan then 1 else 0) true steps stuckBuffer f (steps + 3) (steps + 1)
        (FoundBestPlan {kiteA.plan, kiteB.plan} (fun Q => if Q = kiteB.plan then 1 else 0) true) := by
  have hrun : RecomRun (P := Fin 2) N 1 1 1 2 kiteGraph kitePop 3 0 (uniformLaw kiteGraph) (fun _ => true) (uniformSpan N) [] :=
    ⟨hN, Nat.one_pos, Nat.one_pos, uniform_treeLaw kite_wf hN.1 hN.2, decides_nil⟩
  obtain ⟨s0, h⟩ := C122_two_districts kite_setting (treeChances_uniform kite_wf) kite_setup.1.coherent kite_isPlan.1 rfl hrun (fun Q => if Q = kiteB.plan then 1 else 0) true stuckBuffer
    (S := {kiteA.plan, kiteB.plan}) (fun Q => by rw [← kite_class, two_class kite_isPlan.1 rfl, Finset.mem_filter, mem_plans]) δ hδ
  refine ⟨s0, fun steps hst => ?_⟩
  obtain ⟨f0, hf0⟩ := h steps hst
  refine ⟨f0, fun f hf => ?_⟩
  obtain ⟨m0, hm0⟩ := hf0 f hf
  exact ⟨m0, fun m hm L hL => hm0 m hm _ _ L (by omega) (by omega) (by omega) hL⟩

/-- on the row, `C122_find_iff` says that the best plan is not found -/
example (N : ℕ) (hN : EvenTape rowGraph N) : ¬ ∀ δ : ℚ, 0 < δ → ∃ s0, ∀ steps, s0 ≤ steps → ∃ f0, ∀ f, f0 ≤ f → ∃ m0, ∀ m, m0 ≤ m → ∀ body bursts L, 2 < body → steps < bursts →
    steps / 2 * (f * recomDraws 1 m rowGraph) ≤ L →
      1 - δ ≤ recomVar (P := Fin 3) N L 1 m (uniformSpan N) 1 rowGraph (fun _ => 1) (7 / 3) (2 / 7) [planConstraint rowOnly] rowA rowScore true steps 1 f body bursts
        (FoundBestPlan (recomClass rowGraph (fun _ => 1) (7 / 3) (2 / 7) 3 rowOnly rowA.plan) rowScore true) := by
  have hrun : RecomRun (P := Fin 3) N 1 1 1 3 rowGraph (fun _ => 1) (7 / 3) (2 / 7) (uniformLaw rowGraph) rowOnly (uniformSpan N) [planConstraint rowOnly] :=
    ⟨hN, Nat.one_pos, Nat.one_pos, uniform_treeLaw row_wf hN.1 hN.2, decides_one _⟩
  rw [← C122_find_iff row_setting (treeChances_uniform row_wf) row_coherent row_isPlan.1 (by decide +kernel) hrun rowScore true 1 le_rfl]
  intro h
  obtain ⟨Q, hQ, hreach⟩ := h _ .refl
  have hstay : ∀ Q, Relation.ReflTransGen (ClimbPlan rowGraph (fun _ => 1) (7 / 3) (2 / 7) 3 rowOnly rowScore true) rowA.plan Q → Q = rowA.plan := by
    intro Q h
    induction h with
    | refl => rfl
    | tail _ h ih =>
      subst ih
      obtain ⟨⟨h1 | h1, -, h3⟩, h4⟩ := h
      · exact h1
      · rcases of_decide_eq_true h3 with rfl | rfl | rfl
        · rfl
        · exact absurd h4 (by decide +kernel)
        · exact absurd h1 (by decide +kernel)
  rw [hstay Q hreach] at hQ
  exact absurd (hQ _ C122_row.1) (by decide +kernel)

end GC

import Verif.Lemmas.BurstLaw
import Verif.Props.RecomRuns

/-!
# C110: when short bursts of `recom` find the best plan

`SingleMetricOptimizer.short_bursts` (optimization/optimization.py:376-425) with `always_accept` and `recom` (proposals/tree_proposals.py:36-146), in the setting of
C105.  The plans within reach are those of `recomClass`; a burst of `burst_length = n + 1` plans can lead from the best plan `Q` to `Q'` if `Q'` is the last of the
best on a path of `n` steps from `Q`, each of which keeps the plan or exchanges two districts for two others.
-/

set_option linter.unusedSectionVars false
set_option autoImplicit false

namespace GC

variable {V P : Type} [LinearOrder V] [LinearOrder P] {A : Type} [LinearOrder A]

/-- a `SingleMetricOptimizer` with `recom` (optimization/optimization.py:67-74) whose score is a function of the districts; the yielded plans are not used for anything -/
noncomputable def recomOptimizer (N r m : ℕ) (span : Graph V → M Tape (WTree V)) (fuel : ℕ) (G : Graph V) (pop : V → ℚ) (target eps : ℚ)
    (cs : List (Constraint Tape (PlanState V P))) (a : Assignment V P) (σ : Finset (Finset V) → A) (mx : Bool) : OptCfg Tape (PlanState V P) A :=
  ⟨recomProposal N r m span fuel G pop target eps, cs, fun _ t => t, ⟨a, none⟩, fun x t => (.ok (σ x.plan.plan), t), mx, fun _ t => (.ok (), t)⟩

/-- a step of the run: the plan stays or two districts are exchanged for two others, and the new plan is allowed -/
def RecomStep (G : Graph V) (pop : V → ℚ) (target eps : ℚ) (k : ℕ) (W : Finset (Finset V) → Bool) (Q X : Finset (Finset V)) : Prop :=
  (X = Q ∨ Exchange Q X) ∧ IsPlan G pop target eps k X ∧ W X = true

/-- bursts can find an optimum from every best plan they can get to -/
def CanFindPlan (G : Graph V) (pop : V → ℚ) (target eps : ℚ) (k : ℕ) (W : Finset (Finset V) → Bool) (σ : Finset (Finset V) → A) (mx : Bool) (n : ℕ)
    (Q0 : Finset (Finset V)) : Prop :=
  ∀ Q, Relation.ReflTransGen (BurstTo (RecomStep G pop target eps k W) n σ mx) Q0 Q →
    ∃ Q', IsOptimal (recomClass G pop target eps k W Q0) σ mx Q' ∧ Relation.ReflTransGen (BurstTo (RecomStep G pop target eps k W) n σ mx) Q Q'

/-- the score found is optimal among the plans within reach -/
def FoundBestPlan (S : Finset (Finset (Finset V))) (σ : Finset (Finset V) → A) (mx : Bool) (b : PlanState V P × A) : Prop := ∀ Q ∈ S, isImprovement mx b.2 (σ Q) = true

instance (S : Finset (Finset (Finset V))) (σ : Finset (Finset V) → A) (mx : Bool) : DecidablePred (FoundBestPlan (P := P) S σ mx) := fun b => by
  unfold FoundBestPlan; infer_instance

/-- The probability that `short_bursts` with `num` bursts of `n + 1` plans ends without an exception and with a best plan and score that satisfy `T`, with at most `f`
proposals in each step and at most `m` attempts in each proposal. -/
noncomputable def recomBursts (N L r m : ℕ) (span : Graph V → M Tape (WTree V)) (fuel : ℕ) (G : Graph V) (pop : V → ℚ) (target eps : ℚ)
    (cs : List (Constraint Tape (PlanState V P))) (a : Assignment V P) (σ : Finset (Finset V) → A) (mx : Bool) (n num f body : ℕ)
    (T : PlanState V P × A → Prop) [DecidablePred T] : ℚ :=
  avg N L (fun t => endsWith T ((recomOptimizer N r m span fuel G pop target eps cs a σ mx).shortBursts alwaysAccept (n + 1 : ℕ) num f body t))

section runs
variable {N r m d0 fuel k n num f body L : ℕ} {G : Graph V} {pop : V → ℚ} {target eps : ℚ} {span : Graph V → M Tape (WTree V)} {μ : Finset V → Finset (V × V) → ℚ}
  {W : Finset (Finset V) → Bool} {Q0 : Finset (Finset V)} {cs : List (Constraint Tape (PlanState V P))} {a : Assignment V P} {σ : Finset (Finset V) → A} {mx : Bool}

theorem optLaw_recom (hs : RecomSetting G pop target eps k) (hQ0 : IsPlan G pop target eps k Q0) (hW : W Q0 = true)
    (hrun : RecomRun N d0 r fuel k G pop target eps μ W span cs) (m : ℕ) (a : Assignment V P) (σ : Finset (Finset V) → A) (mx : Bool) :
    OptLaw N (recomDraws d0 m G) (recomOptimizer N r m span fuel G pop target eps cs a σ mx) alwaysAccept
      (fun x : PlanState V P => GoodState G pop target eps k x ∧ x.plan.plan ∈ recomClass G pop target eps k W Q0) (fun x => x.plan.plan)
      (recomClass G pop target eps k W Q0) (recomKernelIn r m G pop target eps μ)
      (fun Q => ∑ X ∈ (plans G pop target eps k).filter (fun X => ¬ W X = true), recomKernelIn r m G pop target eps μ Q X) σ where
  tries := fun x steps => by
    have h := tryLaw_recom (m := m) (a := a) (n := 0) hs hrun.even hrun.repeats hrun.law hrun.fuel hrun.decides hQ0 hW
    exact ⟨fun _ _ => rfl, h.draws, h.good, h.noStop, h.mem, h.law, h.refuse⟩
  score := fun _ _ _ => rfl
  consumer := fun _ _ _ => rfl
  valid := fun x hx t => by
    show validator x cs t = _
    rw [hrun.decides x t hx.1, recomClass_allowed hQ0 hW hx.2]

/-- The best plan after `short_bursts`, compared with the Markov chain of the best plans. -/
theorem recom_bursts (hs : RecomSetting G pop target eps k) (hμ : TreeChances G μ) (hQ0 : IsPlan G pop target eps k Q0) (hW : W Q0 = true) {c d : ℚ}
    (hb : RunBounds G pop target eps k μ W Q0 c d) (hrun : RecomRun N d0 r fuel k G pop target eps μ W span cs) (ha : a.Coherent)
    (haQ : a.plan = Q0) (T : PlanState V P × A → Prop) [DecidablePred T] (T' : Finset (Finset V) → Prop) [DecidablePred T']
    (hT : ∀ b : PlanState V P × A, b.2 = σ b.1.plan.plan → (T b ↔ T' b.1.plan.plan)) (hf : 0 < f) (hbody : n + 1 < body)
    (hL : num * (n * (f * recomDraws d0 m G)) ≤ L) :
    recomBursts N L r m span fuel G pop target eps cs a σ mx n num f body T ≤
        burstsMean (recomClass G pop target eps k W Q0) (keptKernel G pop target eps k μ W) n σ mx num (isIn T') Q0 ∧
      roundsDone c d r m f ^ (n * num) * burstsMean (recomClass G pop target eps k W Q0) (keptKernel G pop target eps k μ W) n σ mx num (isIn T') Q0 ≤
        recomBursts N L r m span fuel G pop target eps cs a σ mx n num f body T := by
  subst haQ
  unfold recomBursts
  have hself := recomClass_self (W := W) hQ0
  rw [(optLaw_recom hs hQ0 hW hrun m a σ mx).short_bursts hrun.even.1 f hf ⟨⟨ha, hQ0⟩, hself⟩ T T' (fun b _ hb => hT b hb) n num body hbody L hL]
  have hstep := fun Q hQ X hX => step_bounds hs hμ hQ0 hW hb.c0 hb.c1 hb.attempt hb.refused r m f (Q := Q) (X := X) hQ hX
  have := burstsMean_dominated (σ := σ) (mx := mx) (S := recomClass G pop target eps k W a.plan) (K := keptKernel G pop target eps k μ W)
    (roundsDone_nonneg hb.c0 hb.c1 hb.d0 hb.d1 r m f) (fun Q hQ X hX => (hstep Q hQ X hX).1) (fun Q hQ X hX => (hstep Q hQ X hX).2.1)
    (fun Q hQ X hX => (hstep Q hQ X hX).2.2) n (ψ := isIn T') (fun m _ => isIn_nonneg m) num a.plan hself
  rw [pow_mul]
  exact this.2

theorem recom_posStep (hs : RecomSetting G pop target eps k) (hμ : TreeChances G μ) (hQ0 : IsPlan G pop target eps k Q0) (hW : W Q0 = true) {Q X : Finset (Finset V)}
    (hQ : Q ∈ recomClass G pop target eps k W Q0) :
    PosStep (recomClass G pop target eps k W Q0) (keptKernel G pop target eps k μ W) Q X ↔ RecomStep G pop target eps k W Q X := by
  have hshare := allowedShare_pos hs hμ (mem_recomClass.1 hQ).1 (recomClass_allowed hQ0 hW hQ)
  unfold PosStep RecomStep
  constructor
  · rintro ⟨-, hX, h⟩
    refine ⟨recomKernel_step hs (mem_recomClass.1 hQ).1 (mem_recomClass.1 hX).1 (fun (h0 : recomKernel G pop target eps μ Q X = 0) => ?_), (mem_recomClass.1 hX).1,
      recomClass_allowed hQ0 hW hX⟩
    unfold keptKernel at h
    rw [h0, zero_div] at h
    exact lt_irrefl _ h
  · rintro ⟨h1, h2, h3⟩
    refine ⟨hQ, recomClass_closed hQ h2 h3 h1, ?_⟩
    rcases h1 with rfl | h1
    · exact keptKernel_self_pos hs hμ hQ0 hW hQ
    · exact div_pos (recomKernel_exchange_pos hs hμ (mem_recomClass.1 hQ).1 h2 h1) hshare

theorem recom_closed {Q X : Finset (Finset V)} (hQ : Q ∈ recomClass G pop target eps k W Q0) (h : RecomStep G pop target eps k W Q X) :
    X ∈ recomClass G pop target eps k W Q0 := recomClass_closed hQ h.2.1 h.2.2 h.1

theorem recom_isChain (hs : RecomSetting G pop target eps k) (hμ : TreeChances G μ) (hQ0 : IsPlan G pop target eps k Q0) (hW : W Q0 = true) (l : List (Finset (Finset V)))
    {Q : Finset (Finset V)} (hQ : Q ∈ recomClass G pop target eps k W Q0) :
    List.IsChain (PosStep (recomClass G pop target eps k W Q0) (keptKernel G pop target eps k μ W)) (Q :: l) ↔ List.IsChain (RecomStep G pop target eps k W) (Q :: l) := by
  induction l generalizing Q with
  | nil => exact ⟨fun _ => .singleton Q, fun _ => .singleton Q⟩
  | cons z l ih =>
    rw [List.isChain_cons_cons, List.isChain_cons_cons, recom_posStep hs hμ hQ0 hW hQ]
    exact and_congr_right (fun h => ih (recom_closed hQ h))

theorem recom_burstTo (hs : RecomSetting G pop target eps k) (hμ : TreeChances G μ) (hQ0 : IsPlan G pop target eps k Q0) (hW : W Q0 = true) {Q X : Finset (Finset V)}
    (hQ : Q ∈ recomClass G pop target eps k W Q0) :
    BurstTo (PosStep (recomClass G pop target eps k W Q0) (keptKernel G pop target eps k μ W)) n σ mx Q X ↔ BurstTo (RecomStep G pop target eps k W) n σ mx Q X := by
  unfold BurstTo
  exact exists_congr (fun l => and_congr_left (fun _ => recom_isChain hs hμ hQ0 hW l hQ))

theorem recomPath_mem {l : List (Finset (Finset V))} {Q : Finset (Finset V)} (hQ : Q ∈ recomClass G pop target eps k W Q0)
    (h : List.IsChain (RecomStep G pop target eps k W) (Q :: l)) : ∀ y ∈ l, y ∈ recomClass G pop target eps k W Q0 := by
  induction l generalizing Q with
  | nil => simp
  | cons z l ih =>
    obtain ⟨h1, h2⟩ := List.isChain_cons_cons.1 h
    intro y hy
    rcases List.mem_cons.1 hy with rfl | hy
    · exact recom_closed hQ h1
    · exact ih (recom_closed hQ h1) h2 y hy

theorem recom_burstReach (hs : RecomSetting G pop target eps k) (hμ : TreeChances G μ) (hQ0 : IsPlan G pop target eps k Q0) (hW : W Q0 = true) {Q X : Finset (Finset V)}
    (hQ : Q ∈ recomClass G pop target eps k W Q0) :
    (Relation.ReflTransGen (BurstTo (PosStep (recomClass G pop target eps k W Q0) (keptKernel G pop target eps k μ W)) n σ mx) Q X ↔
        Relation.ReflTransGen (BurstTo (RecomStep G pop target eps k W) n σ mx) Q X) ∧
      (Relation.ReflTransGen (BurstTo (RecomStep G pop target eps k W) n σ mx) Q X → X ∈ recomClass G pop target eps k W Q0) := by
  have hmem : ∀ X, Relation.ReflTransGen (BurstTo (RecomStep G pop target eps k W) n σ mx) Q X → X ∈ recomClass G pop target eps k W Q0 := by
    intro X h
    induction h with
    | refl => exact hQ
    | tail _ h ih =>
      obtain ⟨l, h1, -, rfl⟩ := h
      exact lastBest_mem ih (recomPath_mem ih h1)
  refine ⟨⟨fun h => ?_, fun h => ?_⟩, hmem X⟩
  · induction h with
    | refl => exact .refl
    | tail _ h ih => exact ih.tail ((recom_burstTo hs hμ hQ0 hW (hmem _ ih)).1 h)
  · induction h with
    | refl => exact .refl
    | tail h1 h ih => exact ih.tail ((recom_burstTo hs hμ hQ0 hW (hmem _ h1)).2 h)

theorem canFindPlan_iff (hs : RecomSetting G pop target eps k) (hμ : TreeChances G μ) (hQ0 : IsPlan G pop target eps k Q0) (hW : W Q0 = true) (n : ℕ) :
    CanFindPlan G pop target eps k W σ mx n Q0 ↔ ∀ δ : ℚ, 0 < δ → ∃ k0 : ℕ, ∀ j, k0 ≤ j → 1 - δ ≤
      burstsMean (recomClass G pop target eps k W Q0) (keptKernel G pop target eps k μ W) n σ mx j (isIn (IsOptimal (recomClass G pop target eps k W Q0) σ mx)) Q0 := by
  have hself := recomClass_self (W := W) hQ0
  rw [← bursts_find_iff (keptKernel_isKernel hs hμ hQ0 hW) n hself]
  unfold CanFindPlan
  refine forall_congr' (fun Q => ?_)
  rw [(recom_burstReach hs hμ hQ0 hW hself).1]
  refine imp_congr_right (fun h => exists_congr (fun Q' => and_congr_right (fun _ => ?_)))
  rw [(recom_burstReach hs hμ hQ0 hW ((recom_burstReach hs hμ hQ0 hW hself).2 h)).1]

theorem exists_optimal {α : Type} {S : Finset α} (hS : S.Nonempty) (σ : α → A) (mx : Bool) : ∃ o ∈ S, IsOptimal S σ mx o := by
  cases mx with
  | true =>
    obtain ⟨o, ho, h⟩ := S.exists_max_image σ hS
    exact ⟨o, ho, fun z hz => by simpa [isImprovement] using h z hz⟩
  | false =>
    obtain ⟨o, ho, h⟩ := S.exists_min_image σ hS
    exact ⟨o, ho, fun z hz => by simpa [isImprovement] using h z hz⟩

/-- long bursts can -/
theorem canFindPlan_long (hs : RecomSetting G pop target eps k) (hμ : TreeChances G μ) (hQ0 : IsPlan G pop target eps k Q0) (hW : W Q0 = true)
    (hn : (recomClass G pop target eps k W Q0).card ≤ n + 1) : CanFindPlan G pop target eps k W σ mx n Q0 := by
  intro Q h
  have hself := recomClass_self (W := W) hQ0
  have hQ := (recom_burstReach hs hμ hQ0 hW hself).2 h
  obtain ⟨o, ho, hopt⟩ := exists_optimal ⟨Q0, hself⟩ σ mx
  have hreach : Relation.ReflTransGen (RecomStep G pop target eps k W) Q o := by
    have h : AllowedReach G pop target eps k W Q o := ((mem_recomClass.1 hQ).2.symm' hQ0 hW).1.trans (mem_recomClass.1 ho).2
    exact Relation.ReflTransGen.lift id (fun u v huv => ⟨.inr huv.1, huv.2⟩) _ _ h
  obtain ⟨l, h1, h2, h3⟩ := (stepsTo_card (fun x hx z hz => recom_closed hx hz) ho hQ hreach hn).path
  obtain ⟨y, hy1, hy2⟩ := burst_reaches (keptKernel_isKernel hs hμ hQ0 hW) hQ ⟨l, o, (recom_isChain hs hμ hQ0 hW l hQ).2 h1, h2, h3, hopt⟩
  exact ⟨y, hy1, .single ((recom_burstTo hs hμ hQ0 hW hQ).1 hy2)⟩

/-- If all plans within reach of a burst are worse, the best plan never changes. -/
theorem recom_stuck (hs : RecomSetting G pop target eps k) (hμ : TreeChances G μ) (hQ0 : IsPlan G pop target eps k Q0) (hW : W Q0 = true)
    (hstuck : ∀ l, List.IsChain (RecomStep G pop target eps k W) (Q0 :: l) → l.length = n → ∀ Q ∈ l, Q ≠ Q0 → ¬ isImprovement mx (σ Q) (σ Q0) = true) (num : ℕ) :
    burstsMean (recomClass G pop target eps k W Q0) (keptKernel G pop target eps k μ W) n σ mx num (isIn (fun Q => Q ≠ Q0)) Q0 = 0 := by
  have hself := recomClass_self (W := W) hQ0
  have hker := keptKernel_isKernel hs hμ hQ0 hW
  have hto : ∀ Q, BurstTo (RecomStep G pop target eps k W) n σ mx Q0 Q → Q = Q0 := by
    rintro Q ⟨l, h1, h2, rfl⟩
    by_contra hne
    obtain ⟨g1, g2⟩ := lastBest_spec (σ := σ) (mx := mx) Q0 l
    rcases List.mem_cons.1 g1 with h | h
    · exact hne h
    · exact hstuck l h1 h2 _ h hne (g2 _ List.mem_cons_self)
  rw [burstsMean_eq n num _ _ hself]
  have hK := burstKernel_isKernel (σ := σ) (mx := mx) hker n
  induction num with
  | zero => show isIn _ _ = 0; unfold isIn; rw [if_neg (by simp)]
  | succ num ih =>
    show ∑ y ∈ recomClass G pop target eps k W Q0, burstKernel (recomClass G pop target eps k W Q0) (keptKernel G pop target eps k μ W) n σ mx Q0 y *
      after (recomClass G pop target eps k W Q0) (burstKernel (recomClass G pop target eps k W Q0) (keptKernel G pop target eps k μ W) n σ mx) num _ y = 0
    refine Finset.sum_eq_zero (fun y hy => ?_)
    by_cases hya : y = Q0
    · rw [hya, ih, mul_zero]
    · have : ¬ 0 < burstKernel (recomClass G pop target eps k W Q0) (keptKernel G pop target eps k μ W) n σ mx Q0 y := fun hpos =>
        hya (hto y ((recom_burstTo hs hμ hQ0 hW hself).1 ((burstKernel_pos hker hself).1 hpos)))
      rw [le_antisymm (not_lt.1 this) (hK.nonneg _ hself y hy), zero_mul]

theorem foundBestPlan_iff {S : Finset (Finset (Finset V))} (b : PlanState V P × A) (h : b.2 = σ b.1.plan.plan) : FoundBestPlan S σ mx b ↔ IsOptimal S σ mx b.1.plan.plan := by
  unfold FoundBestPlan IsOptimal
  rw [h]

end runs

/-! ### Independent draws -/

section independent
variable {α : Type} [DecidableEq α] {S : Finset α} {K : α → α → ℚ} {σ : α → A} {mx : Bool} {q : α → ℚ}

/-- If every step is a draw from the same law `q`, `num` bursts of `n` steps miss the optimum with probability `(1 - p) ^ (n * num)`, where `p` is the probability of the optimal
states. -/
theorem bursts_independent (hq : ∀ x ∈ S, ∀ y ∈ S, K x y = q y) (hsum : ∑ y ∈ S, q y = 1) (n : ℕ) : ∀ (num : ℕ) (x : α), x ∈ S → ¬ IsOptimal S σ mx x →
    burstsMean S K n σ mx num (isIn (IsOptimal S σ mx)) x = 1 - (1 - ∑ y ∈ S.filter (IsOptimal S σ mx), q y) ^ (n * num) := by
  set p := ∑ y ∈ S.filter (IsOptimal S σ mx), q y with hp
  have hcomp : ∑ y ∈ S.filter (fun y => ¬ IsOptimal S σ mx y), q y = 1 - p := by
    have := Finset.sum_filter_add_sum_filter_not S (IsOptimal S σ mx) q
    rw [hsum] at this
    linarith
  have hopt : ∀ num, ∀ x ∈ S, IsOptimal S σ mx x → burstsMean S K n σ mx num (isIn (IsOptimal S σ mx)) x = 1 := by
    have hker : ∀ (m : ℕ) (c : ℚ), ∀ x ∈ S, pathMean S K m (fun _ => c) x = c := by
      intro m c
      induction m with
      | zero => intro x _; rfl
      | succ m ih =>
        intro x hx
        show ∑ y ∈ S, K x y * pathMean S K m (fun _ => c) y = c
        rw [Finset.sum_congr rfl (fun y hy => by rw [hq x hx y hy, ih y hy]), ← Finset.sum_mul, hsum, one_mul]
    intro num
    induction num with
    | zero => intro x _ hx; show isIn _ x = 1; unfold isIn; rw [if_pos hx]
    | succ num ih =>
      intro x hxS hx
      show pathMean S K n (fun l => burstsMean S K n σ mx num (isIn (IsOptimal S σ mx)) (lastBest σ mx x l)) x = 1
      rw [pathMean_congr_mem n (g := fun _ => 1) (fun l _ hl => ih _ (lastBest_mem hxS hl)
        (fun z hz => improve_trans ((lastBest_spec x l).2 x List.mem_cons_self) (hx z hz))) x, hker n 1 x hxS]
  -- one burst
  have hburst : ∀ (c : ℚ) (m : ℕ) (φ : α → ℚ), (∀ y ∈ S, IsOptimal S σ mx y → φ y = 1) → (∀ y ∈ S, ¬ IsOptimal S σ mx y → φ y = 1 - c) →
      ∀ x ∈ S, ∀ b ∈ S, (¬ IsOptimal S σ mx b → pathMean S K m (fun l => φ (lastBest σ mx b l)) x = 1 - (1 - p) ^ m * c) ∧
        (IsOptimal S σ mx b → pathMean S K m (fun l => φ (lastBest σ mx b l)) x = 1) := by
    intro c m φ h1 h2
    induction m with
    | zero => exact fun x _ b hb => ⟨fun hn => by rw [pow_zero, one_mul]; exact h2 b hb hn, fun ho => h1 b hb ho⟩
    | succ m ih =>
      intro x hx b hb
      have hstep : ∀ y ∈ S, (if isImprovement mx (σ y) (σ b) then y else b) ∈ S := fun y hy => by split_ifs; exacts [hy, hb]
      constructor
      · intro hn
        show ∑ y ∈ S, K x y * pathMean S K m (fun l => φ (lastBest σ mx (if isImprovement mx (σ y) (σ b) then y else b) l)) y = _
        rw [← Finset.sum_filter_add_sum_filter_not S (IsOptimal S σ mx)]
        have e1 : ∑ y ∈ S.filter (IsOptimal S σ mx), K x y * pathMean S K m (fun l => φ (lastBest σ mx (if isImprovement mx (σ y) (σ b) then y else b) l)) y = p := by
          refine Finset.sum_congr rfl (fun y hy => ?_)
          obtain ⟨hyS, hyo⟩ := Finset.mem_filter.1 hy
          rw [if_pos (hyo b hb), (ih y hyS y hyS).2 hyo, mul_one, hq x hx y hyS]
        have e2 : ∑ y ∈ S.filter (fun y => ¬ IsOptimal S σ mx y), K x y * pathMean S K m (fun l => φ (lastBest σ mx (if isImprovement mx (σ y) (σ b) then y else b) l)) y =
            (1 - p) * (1 - (1 - p) ^ m * c) := by
          rw [← hcomp, Finset.sum_mul]
          refine Finset.sum_congr rfl (fun y hy => ?_)
          obtain ⟨hyS, hyo⟩ := Finset.mem_filter.1 hy
          rw [hcomp, hq x hx y hyS]
          congr 1
          refine (ih y hyS _ (hstep y hyS)).1 ?_
          split_ifs
          · exact hyo
          · exact hn
        rw [e1, e2]
        ring
      · intro ho
        show ∑ y ∈ S, K x y * pathMean S K m (fun l => φ (lastBest σ mx (if isImprovement mx (σ y) (σ b) then y else b) l)) y = 1
        rw [← hsum]
        refine Finset.sum_congr rfl (fun y hy => ?_)
        rw [hq x hx y hy]
        have : IsOptimal S σ mx (if isImprovement mx (σ y) (σ b) then y else b) := by
          split_ifs with h
          · exact fun z hz => improve_trans h (ho z hz)
          · exact ho
        rw [(ih y hy _ (hstep y hy)).2 this, mul_one]
  intro num
  induction num with
  | zero =>
    intro x _ hx
    show isIn _ x = _
    unfold isIn
    rw [if_neg hx, Nat.mul_zero, pow_zero, sub_self]
  | succ num ih =>
    intro x hxS hx
    show pathMean S K n (fun l => burstsMean S K n σ mx num (isIn (IsOptimal S σ mx)) (lastBest σ mx x l)) x = _
    rw [(hburst ((1 - p) ^ (n * num)) n _ (hopt num) (fun y hy hyo => ih y hy hyo) x hxS x hxS).1 hx, Nat.mul_succ, pow_add, mul_comm ((1 - p) ^ n)]

end independent

/-! ### The theorems -/

section theorems
variable {N r d0 fuel k : ℕ} {G : Graph V} {pop : V → ℚ} {target eps : ℚ} {span : Graph V → M Tape (WTree V)} {μ : Finset V → Finset (V × V) → ℚ}
  {W : Finset (Finset V) → Bool} {cs : List (Constraint Tape (PlanState V P))} {a : Assignment V P}

/-- **C110** (the law) The probability that `short_bursts` ends without an exception and with a best plan in `T` is at most that of the Markov chain of the best plans, in which
a burst is a path of `n` steps of the chain of `recom` and leads to the last of the best plans on it; the bounds on the numbers of attempts and proposals take away no more than
a part that goes to zero exponentially. -/
theorem C110_law (hs : RecomSetting G pop target eps k) (hμ : TreeChances G μ) (ha : a.Coherent) (hQ0 : IsPlan G pop target eps k a.plan) (hW : W a.plan = true)
    (σ : Finset (Finset V) → A) (mx : Bool) :
    ∃ c d : ℚ, 0 ≤ c ∧ c < 1 ∧ 0 ≤ d ∧ d < 1 ∧ ∀ (N d0 r fuel : ℕ) (span : Graph V → M Tape (WTree V)) (cs : List (Constraint Tape (PlanState V P))),
      RecomRun N d0 r fuel k G pop target eps μ W span cs → ∀ (T : Finset (Finset V) → Prop) [DecidablePred T] (n num m f body L : ℕ), 0 < f → n + 1 < body →
      num * (n * (f * recomDraws d0 m G)) ≤ L →
        recomBursts N L r m span fuel G pop target eps cs a σ mx n num f body (fun b => T b.1.plan.plan) ≤
          burstsMean (recomClass G pop target eps k W a.plan) (keptKernel G pop target eps k μ W) n σ mx num (isIn T) a.plan ∧
        roundsDone c d r m f ^ (n * num) * burstsMean (recomClass G pop target eps k W a.plan) (keptKernel G pop target eps k μ W) n σ mx num (isIn T) a.plan ≤
          recomBursts N L r m span fuel G pop target eps cs a σ mx n num f body (fun b => T b.1.plan.plan) := by
  obtain ⟨c, d, hb⟩ := exists_runBounds hs hμ hQ0 hW
  refine ⟨c, d, hb.c0, hb.c1, hb.d0, hb.d1, ?_⟩
  intro N d0 r fuel span cs hrun T _ n num m f body L hf hbody hL
  exact recom_bursts hs hμ hQ0 hW hb hrun ha rfl _ T (fun _ _ => Iff.rfl) hf hbody hL

/-- **C110** (when they find it) With enough bursts, then enough proposals in each step, then enough attempts in each proposal, `short_bursts` finds an optimal score with a
probability as close to 1 as wanted, if and only if from every best plan that bursts can get to they can find an optimal one. -/
theorem C110_find_iff (hs : RecomSetting G pop target eps k) (hμ : TreeChances G μ) (ha : a.Coherent) (hQ0 : IsPlan G pop target eps k a.plan) (hW : W a.plan = true)
    (hrun : RecomRun N d0 r fuel k G pop target eps μ W span cs) (σ : Finset (Finset V) → A) (mx : Bool) (n : ℕ) :
    CanFindPlan G pop target eps k W σ mx n a.plan ↔ ∀ δ : ℚ, 0 < δ → ∃ num0, ∀ num, num0 ≤ num → ∃ f0, ∀ f, f0 ≤ f → ∃ m0, ∀ m, m0 ≤ m →
      ∀ body L, n + 1 < body → num * (n * (f * recomDraws d0 m G)) ≤ L →
        1 - δ ≤ recomBursts N L r m span fuel G pop target eps cs a σ mx n num f body (FoundBestPlan (recomClass G pop target eps k W a.plan) σ mx) := by
  obtain ⟨c, d, hb⟩ := exists_runBounds hs hμ hQ0 hW
  constructor
  · intro hcan δ hδ
    have hδ' : 0 < min (δ / 2) 1 := lt_min (by linarith) one_pos
    obtain ⟨num0, h0⟩ := (canFindPlan_iff hs hμ hQ0 hW n).1 hcan _ hδ'
    refine ⟨num0, fun num hnum => ?_⟩
    obtain ⟨f0, hf0⟩ := enough_rounds hb.c0 hb.c1 hb.d0 hb.d1 (n * num) hδ'
    refine ⟨f0 + 1, fun f hf => ?_⟩
    obtain ⟨m0, hm0⟩ := hf0 f (by omega) r hrun.repeats
    refine ⟨m0, fun m hm body L hbody hL => ?_⟩
    have h1 := (recom_bursts (σ := σ) (mx := mx) hs hμ hQ0 hW hb hrun ha rfl (FoundBestPlan (recomClass G pop target eps k W a.plan) σ mx)
      (IsOptimal (recomClass G pop target eps k W a.plan) σ mx) (fun b hb => foundBestPlan_iff b hb) (by omega : 0 < f) hbody hL).2
    have h2 := h0 num hnum
    have h3 := hm0 m hm
    have h4 : min (δ / 2) 1 ≤ δ / 2 := min_le_left _ _
    have h5 : min (δ / 2) 1 ≤ 1 := min_le_right _ _
    have h6 := mul_le_mul h3 h2 (by linarith) (le_trans (by linarith) h3)
    have h7 : 0 ≤ min (δ / 2) 1 * min (δ / 2) 1 := mul_self_nonneg _
    nlinarith
  · intro h
    refine (canFindPlan_iff hs hμ hQ0 hW n).2 (fun δ hδ => ?_)
    obtain ⟨num0, h0⟩ := h δ hδ
    refine ⟨num0, fun num hnum => ?_⟩
    obtain ⟨f0, hf0⟩ := h0 num hnum
    obtain ⟨m0, hm0⟩ := hf0 (f0 + 1) (by omega)
    refine (hm0 m0 le_rfl (n + 2) (num * (n * ((f0 + 1) * recomDraws d0 m0 G))) (by omega) le_rfl).trans ?_
    exact (recom_bursts (σ := σ) (mx := mx) hs hμ hQ0 hW hb hrun ha rfl (FoundBestPlan (recomClass G pop target eps k W a.plan) σ mx)
      (IsOptimal (recomClass G pop target eps k W a.plan) σ mx) (fun b hb => foundBestPlan_iff b hb) (by omega) (by omega) le_rfl).1

/-- **C110** (long bursts) A `burst_length` of at least the number of plans within reach is enough. -/
theorem C110_long (hs : RecomSetting G pop target eps k) (hμ : TreeChances G μ) (ha : a.Coherent) (hQ0 : IsPlan G pop target eps k a.plan) (hW : W a.plan = true)
    (hrun : RecomRun N d0 r fuel k G pop target eps μ W span cs) (σ : Finset (Finset V) → A) (mx : Bool) (n : ℕ)
    (hn : (recomClass G pop target eps k W a.plan).card ≤ n + 1) (δ : ℚ) (hδ : 0 < δ) :
    ∃ num0, ∀ num, num0 ≤ num → ∃ f0, ∀ f, f0 ≤ f → ∃ m0, ∀ m, m0 ≤ m → ∀ body L, n + 1 < body → num * (n * (f * recomDraws d0 m G)) ≤ L →
      1 - δ ≤ recomBursts N L r m span fuel G pop target eps cs a σ mx n num f body (FoundBestPlan (recomClass G pop target eps k W a.plan) σ mx) :=
  (C110_find_iff hs hμ ha hQ0 hW hrun σ mx n).1 (canFindPlan_long hs hμ hQ0 hW hn) δ hδ

/-- **C110** (the trap) If all other plans that a burst can get to from the initial plan have a worse score, `short_bursts` never finds another one, with any number of bursts. -/
theorem C110_trap (hs : RecomSetting G pop target eps k) (hμ : TreeChances G μ) (ha : a.Coherent) (hQ0 : IsPlan G pop target eps k a.plan) (hW : W a.plan = true)
    (hrun : RecomRun N d0 r fuel k G pop target eps μ W span cs) (σ : Finset (Finset V) → A) (mx : Bool) (n : ℕ)
    (hstuck : ∀ l, List.IsChain (RecomStep G pop target eps k W) (a.plan :: l) → l.length = n → ∀ Q ∈ l, Q ≠ a.plan → ¬ isImprovement mx (σ Q) (σ a.plan) = true)
    (num m f body L : ℕ) (hf : 0 < f) (hbody : n + 1 < body) (hL : num * (n * (f * recomDraws d0 m G)) ≤ L) :
    recomBursts N L r m span fuel G pop target eps cs a σ mx n num f body (fun b => b.1.plan.plan ≠ a.plan) = 0 := by
  obtain ⟨c, d, -, -, -, -, h⟩ := C110_law (P := P) hs hμ ha hQ0 hW σ mx
  obtain ⟨h1, h2⟩ := h N d0 r fuel span cs hrun (fun Q => Q ≠ a.plan) n num m f body L hf hbody hL
  rw [recom_stuck hs hμ hQ0 hW hstuck num] at h1 h2
  rw [mul_zero] at h2
  exact le_antisymm h1 h2

theorem two_bursts (hs : RecomSetting G pop target eps 2) (hμ : TreeChances G μ) (hQ0 : IsPlan G pop target eps 2 a.plan) (hW : W a.plan = true)
    (σ : Finset (Finset V) → A) (mx : Bool) (hno : ¬ IsOptimal (recomClass G pop target eps 2 W a.plan) σ mx a.plan) (n num : ℕ) :
    burstsMean (recomClass G pop target eps 2 W a.plan) (keptKernel G pop target eps 2 μ W) n σ mx num
        (isIn (IsOptimal (recomClass G pop target eps 2 W a.plan) σ mx)) a.plan =
      1 - (1 - (∑ Q ∈ (recomClass G pop target eps 2 W a.plan).filter (IsOptimal (recomClass G pop target eps 2 W a.plan) σ mx), drawChance G pop target eps μ Q) /
        ∑ Q ∈ recomClass G pop target eps 2 W a.plan, drawChance G pop target eps μ Q) ^ (n * num) := by
  have hself := recomClass_self (W := W) hQ0
  have hK := keptKernel_isKernel hs hμ hQ0 hW
  have hq : ∀ Q ∈ recomClass G pop target eps 2 W a.plan, ∀ X ∈ recomClass G pop target eps 2 W a.plan,
      keptKernel G pop target eps 2 μ W Q X = drawChance G pop target eps μ X / ∑ Y ∈ recomClass G pop target eps 2 W a.plan, drawChance G pop target eps μ Y := by
    intro Q hQ X _
    rw [two_kept hs hμ (mem_recomClass.1 hQ).1, two_class hQ0 hW]
  have hsum := hK.sum _ hself
  rw [Finset.sum_congr rfl (fun X hX => hq _ hself X hX)] at hsum
  rw [bursts_independent hq hsum n num a.plan hself hno, Finset.sum_div]

/-- **C110** (two districts) With two districts every plan that satisfies the constraints can be drawn in each step, with the same probability in all of them.  If the initial
plan is not optimal and `p` is the probability that a draw of an allowed plan is optimal, `num` bursts of `n + 1` plans find an optimal score with a probability of at most
`1 - (1 - p) ^ (n * num)`, and of no less but for the bounds on the numbers of attempts and proposals: only the number of steps matters, not how it is divided into bursts.  `p` is
positive, so that every `burst_length` from two on will do. -/
theorem C110_two_districts (hs : RecomSetting G pop target eps 2) (hμ : TreeChances G μ) (ha : a.Coherent) (hQ0 : IsPlan G pop target eps 2 a.plan) (hW : W a.plan = true)
    (σ : Finset (Finset V) → A) (mx : Bool) {S Best : Finset (Finset (Finset V))} (hS : ∀ Q, Q ∈ S ↔ IsPlan G pop target eps 2 Q ∧ W Q = true)
    (hBest : ∀ Q, Q ∈ Best ↔ Q ∈ S ∧ ∀ X ∈ S, if mx then σ X ≤ σ Q else σ Q ≤ σ X) (hno : a.plan ∉ Best) :
    ∃ p : ℚ, p = (∑ Q ∈ Best, drawChance G pop target eps μ Q) / ∑ Q ∈ S, drawChance G pop target eps μ Q ∧ 0 < p ∧ p < 1 ∧
    ∃ c d : ℚ, 0 ≤ c ∧ c < 1 ∧ 0 ≤ d ∧ d < 1 ∧ ∀ (N d0 r fuel : ℕ) (span : Graph V → M Tape (WTree V)) (cs : List (Constraint Tape (PlanState V P))),
      RecomRun N d0 r fuel 2 G pop target eps μ W span cs → ∀ (n num m f body L : ℕ), 0 < f → n + 1 < body → num * (n * (f * recomDraws d0 m G)) ≤ L →
        recomBursts N L r m span fuel G pop target eps cs a σ mx n num f body (FoundBestPlan S σ mx) ≤ 1 - (1 - p) ^ (n * num) ∧
        roundsDone c d r m f ^ (n * num) * (1 - (1 - p) ^ (n * num)) ≤ recomBursts N L r m span fuel G pop target eps cs a σ mx n num f body (FoundBestPlan S σ mx) := by
  have hself := recomClass_self (W := W) hQ0
  have hK := keptKernel_isKernel hs hμ hQ0 hW
  obtain rfl : S = recomClass G pop target eps 2 W a.plan := by
    ext Q
    rw [hS, two_class hQ0 hW, Finset.mem_filter, mem_plans]
  have hopt : ∀ Q, IsOptimal (recomClass G pop target eps 2 W a.plan) σ mx Q ↔ ∀ X ∈ recomClass G pop target eps 2 W a.plan, if mx then σ X ≤ σ Q else σ Q ≤ σ X := by
    intro Q
    unfold IsOptimal
    cases mx <;> simp [isImprovement]
  obtain rfl : Best = (recomClass G pop target eps 2 W a.plan).filter (IsOptimal (recomClass G pop target eps 2 W a.plan) σ mx) := by
    ext Q
    rw [hBest, Finset.mem_filter, hopt]
  have hno' : ¬ IsOptimal (recomClass G pop target eps 2 W a.plan) σ mx a.plan := fun h => hno (Finset.mem_filter.2 ⟨hself, h⟩)
  have hpos : ∀ Q ∈ recomClass G pop target eps 2 W a.plan,
      0 < drawChance G pop target eps μ Q / ∑ Y ∈ recomClass G pop target eps 2 W a.plan, drawChance G pop target eps μ Y := by
    intro Q hQ
    have := keptKernel_self_pos hs hμ hQ0 hW hQ
    rwa [two_kept hs hμ (mem_recomClass.1 hQ).1, ← two_class hQ0 hW] at this
  obtain ⟨o, ho, hoo⟩ := exists_optimal ⟨a.plan, hself⟩ σ mx
  have hsum := hK.sum _ hself
  rw [Finset.sum_congr rfl (fun X _ => by rw [two_kept hs hμ hQ0, ← two_class hQ0 hW])] at hsum
  obtain ⟨c, d, hb⟩ := exists_runBounds hs hμ hQ0 hW
  refine ⟨_, rfl, ?_, ?_, c, d, hb.c0, hb.c1, hb.d0, hb.d1, ?_⟩
  · rw [Finset.sum_div]
    exact Finset.sum_pos (fun Q hQ => hpos Q (Finset.mem_filter.1 hQ).1) ⟨o, Finset.mem_filter.2 ⟨ho, hoo⟩⟩
  · rw [Finset.sum_div, ← hsum]
    exact Finset.sum_lt_sum_of_subset (Finset.filter_subset _ _) hself (fun h => hno' (Finset.mem_filter.1 h).2) (hpos _ hself) (fun Q hQ _ => (hpos Q hQ).le)
  · intro N d0 r fuel span cs hrun n num m f body L hf hbody hL
    rw [← two_bursts hs hμ hQ0 hW σ mx hno' n num]
    exact recom_bursts hs hμ hQ0 hW hb hrun ha rfl _ (IsOptimal (recomClass G pop target eps 2 W a.plan) σ mx) (fun b hb => foundBestPlan_iff b hb) hf hbody hL

end theorems

/-! ### Examples -/

/-- on the graph of five nodes with two plans, bursts of two plans find the better one -/
example (δ : ℚ) (hδ : 0 < δ) (N : ℕ) (hN : EvenTape kiteGraph N) : ∃ num0, ∀ num, num0 ≤ num → ∃ f0, ∀ f, f0 ≤ f → ∃ m0, ∀ m, m0 ≤ m →
    ∀ L, num * (1 * (f * recomDraws 1 m kiteGraph)) ≤ L →
      1 - δ ≤ recomBursts (P := Fin 2) N L 1 m (uniformSpan N) 1 kiteGraph kitePop 3 0 [] kiteA (fun Q => if Q = kiteB.plan then 1 else 0) true 1 num f 3
        (FoundBestPlan (recomClass kiteGraph kitePop 3 0 2 (fun _ => true) kiteA.plan) (fun Q => if Q = kiteB.plan then 1 else 0) true) := by
  have hrun : RecomRun (P := Fin 2) N 1 1 1 2 kiteGraph kitePop 3 0 (uniformLaw kiteGraph) (fun _ => true) (uniformSpan N) [] :=
    ⟨hN, Nat.one_pos, Nat.one_pos, uniform_treeLaw kite_wf hN.1 hN.2, decides_nil⟩
  obtain ⟨num0, h⟩ := C110_long kite_setting (treeChances_uniform kite_wf) kite_setup.1.coherent kite_isPlan.1 rfl hrun (fun Q => if Q = kiteB.plan then 1 else 0) true 1
    (by rw [kite_class]; exact Finset.card_le_two) δ hδ
  refine ⟨num0, fun num hnum => ?_⟩
  obtain ⟨f0, hf0⟩ := h num hnum
  refine ⟨f0, fun f hf => ?_⟩
  obtain ⟨m0, hm0⟩ := hf0 f hf
  exact ⟨m0, fun m hm L hL => hm0 m hm 3 L (by omega) hL⟩

/-- and the rate is geometric -/
example : ∃ p : ℚ, 0 < p ∧ p < 1 ∧ ∃ c d : ℚ, 0 ≤ c ∧ c < 1 ∧ 0 ≤ d ∧ d < 1 ∧ ∀ (N : ℕ), EvenTape kiteGraph N → ∀ m f L : ℕ, 0 < f → 2 * (3 * (f * recomDraws 1 m kiteGraph)) ≤ L →
    roundsDone c d 1 m f ^ (3 * 2) * (1 - (1 - p) ^ (3 * 2)) ≤
      recomBursts (P := Fin 2) N L 1 m (uniformSpan N) 1 kiteGraph kitePop 3 0 [] kiteA (fun Q => if Q = kiteB.plan then 1 else 0) true 3 2 f 5
        (FoundBestPlan {kiteA.plan, kiteB.plan} (fun Q => if Q = kiteB.plan then 1 else 0) true) := by
  have hne : kiteA.plan ≠ kiteB.plan := by rw [kite_plans.1, kite_plans.2]; decide
  obtain ⟨p, -, h0, h1, c, d, hc0, hc1, hd0, hd1, h⟩ := C110_two_districts (P := Fin 2) (a := kiteA) (W := fun _ => true) kite_setting (treeChances_uniform kite_wf)
    kite_setup.1.coherent kite_isPlan.1 rfl (fun Q => if Q = kiteB.plan then 1 else 0) true (S := {kiteA.plan, kiteB.plan}) (Best := {kiteB.plan})
    (fun Q => by
      rw [← kite_class, two_class kite_isPlan.1 rfl, Finset.mem_filter, mem_plans])
    (fun Q => by
      simp only [Finset.mem_singleton, Finset.mem_insert, if_true, forall_eq_or_imp, forall_eq, if_neg hne]
      constructor
      · rintro rfl; simp
      · rintro ⟨-, -, h⟩
        by_contra hQ
        rw [if_neg hQ] at h
        exact absurd h (by decide))
    (by simpa using hne)
  exact ⟨p, h0, h1, c, d, hc0, hc1, hd0, hd1, fun N hN m f L hf hL => (h N 1 1 1 (uniformSpan N) []
    ⟨hN, Nat.one_pos, Nat.one_pos, uniform_treeLaw kite_wf hN.1 hN.2, decides_nil⟩ 3 2 m f 5 L hf (by omega) hL).2⟩

/-- bursts of three plans from the better plan stay there -/
example (N : ℕ) (hN : EvenTape kiteGraph N) (num m f L : ℕ) (hf : 0 < f) (hL : num * (2 * (f * recomDraws 1 m kiteGraph)) ≤ L) :
    recomBursts (P := Fin 2) N L 1 m (uniformSpan N) 1 kiteGraph kitePop 3 0 [] kiteA (fun Q => if Q = kiteB.plan then 0 else 1) true 2 num f 4
        (fun b => b.1.plan.plan ≠ kiteA.plan) = 0 := by
  have hne : kiteA.plan ≠ kiteB.plan := by rw [kite_plans.1, kite_plans.2]; decide
  refine C110_trap (W := fun _ => true) kite_setting (treeChances_uniform kite_wf) kite_setup.1.coherent kite_isPlan.1 rfl
    ⟨hN, Nat.one_pos, Nat.one_pos, uniform_treeLaw kite_wf hN.1 hN.2, decides_nil⟩ (fun Q => if Q = kiteB.plan then 0 else 1) true 2
    (fun l h _ Q hQ hQA => ?_) num m f 4 L hf (by omega) hL
  have := recomPath_mem (Q0 := kiteA.plan) (recomClass_self kite_isPlan.1) h Q hQ
  rw [kite_class, Finset.mem_insert, Finset.mem_singleton] at this
  rcases this with rfl | rfl
  · exact absurd rfl hQA
  · simp [isImprovement, hne]

end GC

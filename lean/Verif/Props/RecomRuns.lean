import Verif.Lemmas.RecomMove
import Verif.Lemmas.InvariantLaw
import Verif.Props.FlipRuns
import Verif.Props.KruskalRecom

/-!
# C105: whole runs of `recom`

`MarkovChain(recom, constraints, always_accept, initial_state, total_steps)` (chain.py:15-196, proposals/tree_proposals.py:36-146): the law of the list of plans, the ensemble
it converges to, and what the numbers of attempts do to it.

Setting (`RecomSetting`): a connected graph, at least two districts, and two neighbouring districts have at least three nodes (with two nodes no node of the
tree has more than one neighbour and `bipartition_tree` fails).  The law of the spanning trees is any `μ` that gives every spanning tree of every
connected piece a positive probability: the default `random_spanning_tree` and `uniform_spanning_tree` are the instances `C105_default` and `C105_uniform`.
The random numbers are those of a tape with `EvenTape`: every choice that occurs divides evenly.

The proposal makes at most `m` attempts, `r` with each tree (`max_attempts`, `node_repeats`), and raises `RuntimeError` when all have failed; a run in which this
happens has no list of plans.  A step makes proposals until the constraints allow one; the runs considered make at most `f` in each step.  So the list has
a probability that depends on `m`, `r` and `f`; the theorems compare it, for all of them, with a Markov chain on plans that does not.
-/

set_option linter.unusedSectionVars false
set_option autoImplicit false

namespace GC

variable {V P : Type} [LinearOrder V] [LinearOrder P]

/-- exchanges of two districts, one after the other, all of them to plans that the condition `W` allows -/
def AllowedReach (G : Graph V) (pop : V → ℚ) (target eps : ℚ) (k : ℕ) (W : Finset (Finset V) → Bool) : Finset (Finset V) → Finset (Finset V) → Prop :=
  Relation.ReflTransGen (fun Q Q' => Exchange Q Q' ∧ IsPlan G pop target eps k Q' ∧ W Q' = true)

open Classical in
/-- the plans that can be reached from `Q` through allowed plans -/
noncomputable def recomClass (G : Graph V) (pop : V → ℚ) (target eps : ℚ) (k : ℕ) (W : Finset (Finset V) → Bool) (Q : Finset (Finset V)) :
    Finset (Finset (Finset V)) :=
  (plans G pop target eps k).filter (AllowedReach G pop target eps k W Q)

/-- the probability that a proposal of `recom` from `Q` is allowed by `W`, if its attempts find a tree that can be cut -/
noncomputable def allowedShare (G : Graph V) (pop : V → ℚ) (target eps : ℚ) (k : ℕ) (μ : Finset V → Finset (V × V) → ℚ) (W : Finset (Finset V) → Bool)
    (Q : Finset (Finset V)) : ℚ :=
  ∑ X ∈ (plans G pop target eps k).filter (fun X => W X = true), recomKernel G pop target eps μ Q X

/-- the probability that the next plan is `X`, if there is no bound on the number of attempts and proposals: that of `recom`, given that `W` allows the plan -/
noncomputable def keptKernel (G : Graph V) (pop : V → ℚ) (target eps : ℚ) (k : ℕ) (μ : Finset V → Finset (V × V) → ℚ) (W : Finset (Finset V) → Bool)
    (Q X : Finset (Finset V)) : ℚ :=
  recomKernel G pop target eps μ Q X / allowedShare G pop target eps k μ W Q

/-- the constraints together are the condition `W` on the districts -/
def DecidesPlan (G : Graph V) (pop : V → ℚ) (target eps : ℚ) (k : ℕ) (W : Finset (Finset V) → Bool) (cs : List (Constraint Tape (PlanState V P))) : Prop :=
  ∀ (x : PlanState V P) t, GoodState G pop target eps k x → validator x cs t = (.ok (W x.plan.plan), t)

/-- the part of the probability that is left if each of the `f` proposals of a step finds a tree with probability at least `1 - c ^ ⌈m / r⌉` and is refused with probability at
most `d` -/
def roundsDone (c d : ℚ) (r m f : ℕ) : ℚ := (1 - c ^ ((m + r - 1) / r)) ^ f * (1 - d ^ f)

/-- what a round of the loop makes of the proposed plan -/
def planSieve (W : Finset (Finset V) → Bool) : Py (PlanState V P) → Py (Option (PlanState V P))
  | .ok q => .ok (if W q.plan.plan then some q else none)
  | .error e => .error e

section klass
variable {G : Graph V} {pop : V → ℚ} {target eps : ℚ} {k : ℕ} {W : Finset (Finset V) → Bool} {Q X Q0 : Finset (Finset V)}

theorem mem_recomClass : X ∈ recomClass G pop target eps k W Q ↔ IsPlan G pop target eps k X ∧ AllowedReach G pop target eps k W Q X := by
  classical
  unfold recomClass
  rw [Finset.mem_filter, mem_plans]

theorem AllowedReach.symm' (hQ : IsPlan G pop target eps k Q) (hW : W Q = true) (h : AllowedReach G pop target eps k W Q X) :
    AllowedReach G pop target eps k W X Q ∧ W X = true ∧ IsPlan G pop target eps k X := by
  induction h with
  | refl => exact ⟨.refl, hW, hQ⟩
  | tail _ h2 ih => exact ⟨(Relation.ReflTransGen.single ⟨h2.1.symm, ih.2.2, ih.2.1⟩).trans ih.1, h2.2.2, h2.2.1⟩

theorem recomClass_allowed (hQ0 : IsPlan G pop target eps k Q0) (hW : W Q0 = true) (hX : X ∈ recomClass G pop target eps k W Q0) : W X = true :=
  ((mem_recomClass.1 hX).2.symm' hQ0 hW).2.1

theorem recomClass_self (hQ0 : IsPlan G pop target eps k Q0) : Q0 ∈ recomClass G pop target eps k W Q0 := mem_recomClass.2 ⟨hQ0, .refl⟩

theorem recomClass_closed (hQ : Q ∈ recomClass G pop target eps k W Q0) (hX : IsPlan G pop target eps k X) (hW : W X = true) (h : X = Q ∨ Exchange Q X) :
    X ∈ recomClass G pop target eps k W Q0 := by
  rcases h with rfl | h
  · exact hQ
  · exact mem_recomClass.2 ⟨hX, (mem_recomClass.1 hQ).2.tail ⟨h, hX, hW⟩⟩

theorem recomClass_eq (hQ0 : IsPlan G pop target eps k Q0) (hW : W Q0 = true) (hQ : Q ∈ recomClass G pop target eps k W Q0) :
    recomClass G pop target eps k W Q = recomClass G pop target eps k W Q0 := by
  have h := (mem_recomClass.1 hQ).2
  have h' := (h.symm' hQ0 hW).1
  ext X
  rw [mem_recomClass, mem_recomClass]
  exact ⟨fun hX => ⟨hX.1, h.trans hX.2⟩, fun hX => ⟨hX.1, h'.trans hX.2⟩⟩

end klass

/-! ### One round of the loop -/

section round
variable {N r m d0 fuel k n : ℕ} {G : Graph V} {pop : V → ℚ} {target eps : ℚ} {span : Graph V → M Tape (WTree V)} {μ : Finset V → Finset (V × V) → ℚ}
  {W : Finset (Finset V) → Bool} {Q0 : Finset (Finset V)} {cs : List (Constraint Tape (PlanState V P))} {a : Assignment V P} {x : PlanState V P}

theorem oneTry_planSieve (hs : RecomSetting G pop target eps k) (hN : EvenTape G N) (hr : 0 < r) (hl : TreeLaw N d0 G span μ) (hf : 0 < fuel)
    (hcs : DecidesPlan G pop target eps k W cs) (hx : GoodState G pop target eps k x) (t : Tape) :
    (oneTry (recomChain N r m span fuel G pop target eps a n) cs x t).1 = planSieve W (recomProposal N r m span fuel G pop target eps x t).1 := by
  show (M.bind (recomProposal N r m span fuel G pop target eps x) _ t).1 = _
  unfold M.bind
  rcases proposal_result (m := m) hs hN hr hl hf hx t with ⟨h, -⟩ | ⟨y, h, hy, -, -⟩
  · rcases hp : recomProposal N r m span fuel G pop target eps x t with ⟨res, s⟩
    rw [hp] at h
    dsimp only at h
    subst h
    rfl
  · rcases hp : recomProposal N r m span fuel G pop target eps x t with ⟨res, s⟩
    rw [hp] at h
    dsimp only at h
    subst h
    show (M.bind (validator y cs) _ s).1 = _
    unfold M.bind
    rw [hcs y s hy]
    simp only [planSieve]
    cases W y.plan.plan <;> rfl

theorem draws_oneTry_recom (hs : RecomSetting G pop target eps k) (hN : EvenTape G N) (hr : 0 < r) (hl : TreeLaw N d0 G span μ) (hf : 0 < fuel)
    (hcs : DecidesPlan G pop target eps k W cs) (hx : GoodState G pop target eps k x) :
    Draws (recomDraws d0 m G) (oneTry (recomChain N r m span fuel G pop target eps a n) cs x) := by
  unfold oneTry
  refine (draws_recomProposal (m := m) hs hN hr hl hf hx).bind_reach (j := 0) (fun t t' q hq => ?_)
  have hg : GoodState G pop target eps k q := by
    rcases proposal_result (m := m) hs hN hr hl hf hx t with ⟨h, -⟩ | ⟨y, h, hy, -, -⟩
    · rw [hq] at h; cases h
    · rw [hq] at h; cases h; exact hy
  refine .done (.ok (if W q.plan.plan then some q else none)) (fun t => ?_)
  show M.bind (validator q cs) _ t = _
  unfold M.bind
  rw [hcs q t hg]
  cases W q.plan.plan <;> rfl

/-- One round of the loop. -/
theorem tryLaw_recom (hs : RecomSetting G pop target eps k) (hN : EvenTape G N) (hr : 0 < r) (hl : TreeLaw N d0 G span μ) (hf : 0 < fuel)
    (hcs : DecidesPlan G pop target eps k W cs) (hQ0 : IsPlan G pop target eps k Q0) (hW : W Q0 = true) :
    TryLaw N (recomDraws d0 m G) (recomChain N r m span fuel G pop target eps a n) cs
      (fun x : PlanState V P => GoodState G pop target eps k x ∧ x.plan.plan ∈ recomClass G pop target eps k W Q0) (fun x => x.plan.plan)
      (recomClass G pop target eps k W Q0) (recomKernelIn r m G pop target eps μ)
      (fun Q => ∑ X ∈ (plans G pop target eps k).filter (fun X => ¬ W X = true), recomKernelIn r m G pop target eps μ Q X) where
  erase := fun _ _ => rfl
  draws := fun x hx => draws_oneTry_recom hs hN hr hl hf hcs hx.1
  noStop := by
    intro x hx t
    rw [oneTry_planSieve hs hN hr hl hf hcs hx.1]
    rcases proposal_result (m := m) hs hN hr hl hf hx.1 t with ⟨h, -⟩ | ⟨y, h, -, -, -⟩ <;> rw [h] <;> simp [planSieve]
  good := by
    intro x hx t y hy
    rw [oneTry_planSieve hs hN hr hl hf hcs hx.1] at hy
    rcases proposal_result (m := m) hs hN hr hl hf hx.1 t with ⟨h, -⟩ | ⟨z, h, hz, hex, -⟩
    · rw [h] at hy; simp [planSieve] at hy
    · rw [h] at hy
      simp only [planSieve, Except.ok.injEq] at hy
      split_ifs at hy with hW'
      cases hy
      exact ⟨hz, recomClass_closed hx.2 hz.2 hW' hex⟩
  mem := fun x hx => hx.2
  law := by
    intro x hx X hX
    have hXp := (mem_recomClass.1 hX).1
    have hXW := recomClass_allowed hQ0 hW hX
    rw [← move_chance hs hN hr hl hf hx.1.1 hx.1.2 hXp _ le_rfl]
    refine avg_congr N _ (fun t => ?_)
    rw [oneTry_planSieve hs hN hr hl hf hcs hx.1]
    rcases proposal_result (m := m) hs hN hr hl hf hx.1 t with ⟨h, h0⟩ | ⟨y, h, hy, -, h1⟩
    · rw [h, h0]; rfl
    · rw [h, h1]
      simp only [planSieve]
      by_cases hyX : y.plan.plan = X
      · rw [if_pos hyX, hyX, if_pos hXW]
        simp only [triedTo, hyX, if_true]
      · rw [if_neg hyX]
        split_ifs
        · simp only [triedTo, if_neg hyX]
        · rfl
  refuse := by
    intro x hx
    rw [← Finset.sum_congr rfl (fun X hX => move_chance hs hN hr hl hf hx.1.1 hx.1.2 (mem_plans.1 (Finset.mem_filter.1 hX).1) _ le_rfl), ← avg_finset_sum]
    refine avg_congr N _ (fun t => ?_)
    rw [oneTry_planSieve hs hN hr hl hf hcs hx.1]
    rcases proposal_result (m := m) hs hN hr hl hf hx.1 t with ⟨h, h0⟩ | ⟨y, h, hy, -, h1⟩
    · rw [h, Finset.sum_eq_zero (fun X _ => h0 X)]; rfl
    · rw [h, Finset.sum_congr rfl (fun X _ => h1 X), Finset.sum_ite_eq]
      simp only [planSieve]
      by_cases hyW : W y.plan.plan = true
      · rw [if_pos hyW, if_neg (show ¬ y.plan.plan ∈ (plans G pop target eps k).filter (fun X => ¬ W X = true) from fun h => (Finset.mem_filter.1 h).2 hyW)]; rfl
      · rw [if_neg hyW, if_pos (Finset.mem_filter.2 ⟨mem_plans.2 hy.2, hyW⟩)]; rfl

end round

/-! ### The Markov chain of the plans -/

section kernel
variable {k : ℕ} {G : Graph V} {pop : V → ℚ} {target eps : ℚ} {μ : Finset V → Finset (V × V) → ℚ} {W : Finset (Finset V) → Bool} {Q0 Q X : Finset (Finset V)}

theorem allowedShare_pos (hs : RecomSetting G pop target eps k) (hμ : TreeChances G μ) (hQ : IsPlan G pop target eps k Q) (hW : W Q = true) :
    0 < allowedShare G pop target eps k μ W Q :=
  Finset.sum_pos' (fun X hX => recomKernel_nonneg hs hμ hQ (mem_plans.1 (Finset.mem_filter.1 hX).1))
    ⟨Q, Finset.mem_filter.2 ⟨mem_plans.2 hQ, hW⟩, recomKernel_self_pos hs hμ hQ⟩

/-- all allowed plans that can come next are in the class -/
theorem allowedShare_class (hs : RecomSetting G pop target eps k) (hQ0 : IsPlan G pop target eps k Q0) (hW : W Q0 = true)
    (hQ : Q ∈ recomClass G pop target eps k W Q0) :
    allowedShare G pop target eps k μ W Q = ∑ X ∈ recomClass G pop target eps k W Q0, recomKernel G pop target eps μ Q X := by
  symm
  refine Finset.sum_subset (fun X hX => Finset.mem_filter.2 ⟨mem_plans.2 (mem_recomClass.1 hX).1, recomClass_allowed hQ0 hW hX⟩) (fun X hX hno => ?_)
  by_contra h0
  obtain ⟨h1, h2⟩ := Finset.mem_filter.1 hX
  exact hno (recomClass_closed hQ (mem_plans.1 h1) h2 (recomKernel_step hs (mem_recomClass.1 hQ).1 (mem_plans.1 h1) h0))

theorem keptKernel_isKernel (hs : RecomSetting G pop target eps k) (hμ : TreeChances G μ) (hQ0 : IsPlan G pop target eps k Q0) (hW : W Q0 = true) :
    IsKernel (recomClass G pop target eps k W Q0) (keptKernel G pop target eps k μ W) := by
  refine ⟨fun Q hQ X hX => ?_, fun Q hQ => ?_⟩
  · exact div_nonneg (recomKernel_nonneg hs hμ (mem_recomClass.1 hQ).1 (mem_recomClass.1 hX).1)
      (allowedShare_pos hs hμ (mem_recomClass.1 hQ).1 (recomClass_allowed hQ0 hW hQ)).le
  · unfold keptKernel
    rw [← Finset.sum_div, ← allowedShare_class hs hQ0 hW hQ]
    exact div_self (allowedShare_pos hs hμ (mem_recomClass.1 hQ).1 (recomClass_allowed hQ0 hW hQ)).ne'

theorem keptKernel_self_pos (hs : RecomSetting G pop target eps k) (hμ : TreeChances G μ) (hQ0 : IsPlan G pop target eps k Q0) (hW : W Q0 = true)
    (hQ : Q ∈ recomClass G pop target eps k W Q0) : 0 < keptKernel G pop target eps k μ W Q Q :=
  div_pos (recomKernel_self_pos hs hμ (mem_recomClass.1 hQ).1) (allowedShare_pos hs hμ (mem_recomClass.1 hQ).1 (recomClass_allowed hQ0 hW hQ))

theorem keptKernel_connects (hs : RecomSetting G pop target eps k) (hμ : TreeChances G μ) (hQ0 : IsPlan G pop target eps k Q0) (hW : W Q0 = true) :
    Connects (recomClass G pop target eps k W Q0) (keptKernel G pop target eps k μ W) := by
  intro Q hQ X hX
  have h : AllowedReach G pop target eps k W Q X := ((mem_recomClass.1 hQ).2.symm' hQ0 hW).1.trans (mem_recomClass.1 hX).2
  clear hX
  suffices X ∈ recomClass G pop target eps k W Q0 ∧ Relation.ReflTransGen (fun u v => u ∈ recomClass G pop target eps k W Q0 ∧
      v ∈ recomClass G pop target eps k W Q0 ∧ 0 < keptKernel G pop target eps k μ W u v) Q X from this.2
  induction h with
  | refl => exact ⟨hQ, .refl⟩
  | tail _ h2 ih =>
    have hm := recomClass_closed ih.1 h2.2.1 h2.2.2 (.inr h2.1)
    refine ⟨hm, ih.2.tail ⟨ih.1, hm, ?_⟩⟩
    exact div_pos (recomKernel_exchange_pos hs hμ (mem_recomClass.1 ih.1).1 h2.2.1 h2.1)
      (allowedShare_pos hs hμ (mem_recomClass.1 ih.1).1 (recomClass_allowed hQ0 hW ih.1))

/-- what is refused is what is not allowed -/
theorem refused_share (hs : RecomSetting G pop target eps k) (hμ : TreeChances G μ) (hQ : IsPlan G pop target eps k Q) :
    ∑ X ∈ (plans G pop target eps k).filter (fun X => ¬ W X = true), recomKernel G pop target eps μ Q X = 1 - allowedShare G pop target eps k μ W Q := by
  rw [← sum_recomKernel hs hμ hQ, ← Finset.sum_filter_add_sum_filter_not (plans G pop target eps k) (fun X => W X = true)]
  unfold allowedShare
  ring

/-- a bound for the probability that one attempt fails -/
theorem exists_attempt_bound (hs : RecomSetting G pop target eps k) (hμ : TreeChances G μ) :
    ∃ c, 0 ≤ c ∧ c < 1 ∧ ∀ Q, IsPlan G pop target eps k Q → ∀ e ∈ between G Q, 0 ≤ 1 - cutChance G pop target eps μ ((touching Q e).biUnion id) ∧
      1 - cutChance G pop target eps μ ((touching Q e).biUnion id) ≤ c := by
  classical
  let T := G.nodes.powerset.filter (fun U => ConnectedOn G U ∧ 0 < cutChance G pop target eps μ U)
  have hmem : ∀ Q, IsPlan G pop target eps k Q → ∀ e ∈ between G Q, (touching Q e).biUnion id ∈ T := by
    intro Q hQ e he
    obtain ⟨s, hs', t, ht', hst, htch, hcon, h3, hU, hdst⟩ := cut_pair hs hQ he
    rw [htch, biUnion_pair]
    exact Finset.mem_filter.2 ⟨Finset.mem_powerset.2 hU, hcon, cutChance_pair_pos hs.wf hμ hQ hs' ht' hst hcon⟩
  have hle : ∀ U ∈ T, cutChance G pop target eps μ U ≤ 1 := by
    intro U hU
    obtain ⟨h1, h2, -⟩ := Finset.mem_filter.1 hU
    exact cutChance_le_one' hμ (Finset.mem_powerset.1 h1) h2
  by_cases hT : T.Nonempty
  · obtain ⟨U, hU, hmin⟩ := T.exists_min_image (fun U => cutChance G pop target eps μ U) hT
    refine ⟨1 - cutChance G pop target eps μ U, by linarith [hle U hU], by linarith [(Finset.mem_filter.1 hU).2.2], fun Q hQ e he => ⟨?_, ?_⟩⟩
    · linarith [hle _ (hmem Q hQ e he)]
    · linarith [hmin _ (hmem Q hQ e he)]
  · refine ⟨0, le_rfl, one_pos, fun Q hQ e he => absurd ⟨_, hmem Q hQ e he⟩ hT⟩

/-- a bound for the probability that a proposal is refused -/
theorem exists_refused_bound (hs : RecomSetting G pop target eps k) (hμ : TreeChances G μ) (hQ0 : IsPlan G pop target eps k Q0) (hW : W Q0 = true) :
    ∃ d, 0 ≤ d ∧ d < 1 ∧ ∀ Q ∈ recomClass G pop target eps k W Q0, 1 - allowedShare G pop target eps k μ W Q ≤ d := by
  obtain ⟨Q, hQ, hmax⟩ := (recomClass G pop target eps k W Q0).exists_max_image (fun Q => 1 - allowedShare G pop target eps k μ W Q) ⟨Q0, recomClass_self hQ0⟩
  have hpos := allowedShare_pos hs hμ (mem_recomClass.1 hQ).1 (recomClass_allowed hQ0 hW hQ)
  exact ⟨max 0 (1 - allowedShare G pop target eps k μ W Q), le_max_left _ _, max_lt one_pos (by linarith), fun X hX => (hmax X hX).trans (le_max_right _ _)⟩

/-- the probabilities with `m` attempts, compared with those without a bound -/
theorem recomKernelIn_bounds (hs : RecomSetting G pop target eps k) (hμ : TreeChances G μ) {c : ℚ} (hc : ∀ Q, IsPlan G pop target eps k Q → ∀ e ∈ between G Q,
      0 ≤ 1 - cutChance G pop target eps μ ((touching Q e).biUnion id) ∧ 1 - cutChance G pop target eps μ ((touching Q e).biUnion id) ≤ c) (r m : ℕ)
    (hQ : IsPlan G pop target eps k Q) (hX : IsPlan G pop target eps k X) :
    recomKernelIn r m G pop target eps μ Q X ≤ recomKernel G pop target eps μ Q X ∧
      (1 - c ^ ((m + r - 1) / r)) * recomKernel G pop target eps μ Q X ≤ recomKernelIn r m G pop target eps μ Q X := by
  unfold recomKernelIn recomKernel
  rw [← mul_div_assoc, Finset.mul_sum]
  have hseen : ∀ e ∈ between G Q, seenChance r m G pop target eps μ ((touching Q e).biUnion id) ≤ 1 ∧
      1 - c ^ ((m + r - 1) / r) ≤ seenChance r m G pop target eps μ ((touching Q e).biUnion id) := by
    intro e he
    obtain ⟨h0, h1⟩ := hc Q hQ e he
    unfold seenChance
    have h2 := pow_le_pow_left₀ h0 h1 ((m + r - 1) / r)
    have h3 := pow_nonneg h0 ((m + r - 1) / r)
    constructor <;> linarith
  have hb := (between_card_pos hs hQ).le
  constructor
  · refine div_le_div_of_nonneg_right (Finset.sum_le_sum (fun e he => ?_)) hb
    have := mul_le_mul_of_nonneg_left (hseen e he).1 (resplit_cases hs hμ hQ hX he).2
    rwa [mul_one] at this
  · refine div_le_div_of_nonneg_right (Finset.sum_le_sum (fun e he => ?_)) hb
    rw [mul_comm]
    exact mul_le_mul_of_nonneg_left (hseen e he).2 (resplit_cases hs hμ hQ hX he).2

/-- a step with at most `f` proposals of at most `m` attempts, compared with the Markov chain -/
theorem step_bounds (hs : RecomSetting G pop target eps k) (hμ : TreeChances G μ) (hQ0 : IsPlan G pop target eps k Q0) (hW : W Q0 = true) {c d : ℚ}
    (hc0 : 0 ≤ c) (hc1 : c < 1) (hc : ∀ Q, IsPlan G pop target eps k Q → ∀ e ∈ between G Q,
      0 ≤ 1 - cutChance G pop target eps μ ((touching Q e).biUnion id) ∧ 1 - cutChance G pop target eps μ ((touching Q e).biUnion id) ≤ c)
    (hd : ∀ Q ∈ recomClass G pop target eps k W Q0, 1 - allowedShare G pop target eps k μ W Q ≤ d) (r m f : ℕ)
    (hQ : Q ∈ recomClass G pop target eps k W Q0) (hX : X ∈ recomClass G pop target eps k W Q0) :
    (0 ≤ triedKernel (recomKernelIn r m G pop target eps μ)
        (fun Q => ∑ X ∈ (plans G pop target eps k).filter (fun X => ¬ W X = true), recomKernelIn r m G pop target eps μ Q X) f Q X) ∧
      triedKernel (recomKernelIn r m G pop target eps μ)
        (fun Q => ∑ X ∈ (plans G pop target eps k).filter (fun X => ¬ W X = true), recomKernelIn r m G pop target eps μ Q X) f Q X ≤
          keptKernel G pop target eps k μ W Q X ∧
      roundsDone c d r m f * keptKernel G pop target eps k μ W Q X ≤ triedKernel (recomKernelIn r m G pop target eps μ)
        (fun Q => ∑ X ∈ (plans G pop target eps k).filter (fun X => ¬ W X = true), recomKernelIn r m G pop target eps μ Q X) f Q X := by
  have hQp := (mem_recomClass.1 hQ).1
  have hXp := (mem_recomClass.1 hX).1
  set θ := 1 - c ^ ((m + r - 1) / r) with hθ
  have hθ0 : 0 ≤ θ := by have := pow_le_one₀ (n := (m + r - 1) / r) hc0 hc1.le; linarith
  have hθ1 : θ ≤ 1 := by have := pow_nonneg hc0 ((m + r - 1) / r); linarith
  set s := allowedShare G pop target eps k μ W Q with hsdef
  have hspos : 0 < s := allowedShare_pos hs hμ hQp (recomClass_allowed hQ0 hW hQ)
  set A := recomKernel G pop target eps μ Q X with hA
  have hA0 : 0 ≤ A := recomKernel_nonneg hs hμ hQp hXp
  obtain ⟨hA1, hA2⟩ := recomKernelIn_bounds hs hμ hc r m hQp hXp
  have hρ1 : ∑ X ∈ (plans G pop target eps k).filter (fun X => ¬ W X = true), recomKernelIn r m G pop target eps μ Q X ≤ 1 - s := by
    rw [hsdef, ← refused_share hs hμ hQp]
    exact Finset.sum_le_sum (fun Y hY => (recomKernelIn_bounds hs hμ hc r m hQp (mem_plans.1 (Finset.mem_filter.1 hY).1)).1)
  have hρ2 : θ * (1 - s) ≤ ∑ X ∈ (plans G pop target eps k).filter (fun X => ¬ W X = true), recomKernelIn r m G pop target eps μ Q X := by
    rw [hsdef, ← refused_share hs hμ hQp, Finset.mul_sum]
    exact Finset.sum_le_sum (fun Y hY => (recomKernelIn_bounds hs hμ hc r m hQp (mem_plans.1 (Finset.mem_filter.1 hY).1)).2)
  have hs1 : 0 ≤ 1 - s := by
    rw [hsdef, ← refused_share hs hμ hQp]
    exact Finset.sum_nonneg (fun Y hY => recomKernel_nonneg hs hμ hQp (mem_plans.1 (Finset.mem_filter.1 hY).1))
  have hds : 1 - s ≤ d := hd Q hQ
  unfold triedKernel
  dsimp only
  set B := recomKernelIn r m G pop target eps μ Q X
  set ρ := ∑ X ∈ (plans G pop target eps k).filter (fun X => ¬ W X = true), recomKernelIn r m G pop target eps μ Q X
  have hB0 : 0 ≤ B := (mul_nonneg hθ0 hA0).trans hA2
  have hρ0 : 0 ≤ ρ := (mul_nonneg hθ0 hs1).trans hρ2
  have hgeo : ∀ g, A * ∑ i ∈ Finset.range g, (1 - s) ^ i = (1 - (1 - s) ^ g) * (A / s) := by
    intro g
    have h1 := geom_sum_mul_neg (1 - s) g
    rw [sub_sub_cancel] at h1
    rw [← h1]
    field_simp
  have hkept : keptKernel G pop target eps k μ W Q X = A / s := rfl
  rw [hkept]
  have hAs : 0 ≤ A / s := div_nonneg hA0 hspos.le
  refine ⟨mul_nonneg hB0 (Finset.sum_nonneg (fun i _ => pow_nonneg hρ0 i)), ?_, ?_⟩
  · calc B * ∑ i ∈ Finset.range f, ρ ^ i ≤ A * ∑ i ∈ Finset.range f, (1 - s) ^ i :=
          mul_le_mul hA1 (Finset.sum_le_sum (fun i _ => pow_le_pow_left₀ hρ0 hρ1 i)) (Finset.sum_nonneg (fun i _ => pow_nonneg hρ0 i)) hA0
      _ = (1 - (1 - s) ^ f) * (A / s) := hgeo f
      _ ≤ 1 * (A / s) := mul_le_mul_of_nonneg_right (by linarith [pow_nonneg hs1 f]) hAs
      _ = A / s := one_mul _
  · unfold roundsDone
    rw [← hθ]
    rcases f with _ | g
    · simp
    · have hsum : θ ^ g * ∑ i ∈ Finset.range (g + 1), (1 - s) ^ i ≤ ∑ i ∈ Finset.range (g + 1), ρ ^ i := by
        rw [Finset.mul_sum]
        refine Finset.sum_le_sum (fun i hi => ?_)
        calc θ ^ g * (1 - s) ^ i ≤ θ ^ i * (1 - s) ^ i :=
              mul_le_mul_of_nonneg_right (pow_le_pow_of_le_one hθ0 hθ1 (by have := Finset.mem_range.1 hi; omega)) (pow_nonneg hs1 i)
          _ = (θ * (1 - s)) ^ i := (mul_pow _ _ _).symm
          _ ≤ ρ ^ i := pow_le_pow_left₀ (mul_nonneg hθ0 hs1) hρ2 i
      have hpow : (1 - s) ^ (g + 1) ≤ d ^ (g + 1) := pow_le_pow_left₀ hs1 hds _
      calc θ ^ (g + 1) * (1 - d ^ (g + 1)) * (A / s) ≤ θ ^ (g + 1) * (1 - (1 - s) ^ (g + 1)) * (A / s) :=
            mul_le_mul_of_nonneg_right (mul_le_mul_of_nonneg_left (by linarith) (pow_nonneg hθ0 _)) hAs
        _ = (θ * A) * (θ ^ g * ∑ i ∈ Finset.range (g + 1), (1 - s) ^ i) := by
            rw [mul_assoc, ← hgeo]; ring
        _ ≤ B * ∑ i ∈ Finset.range (g + 1), ρ ^ i :=
            mul_le_mul hA2 hsum (mul_nonneg (pow_nonneg hθ0 _) (Finset.sum_nonneg (fun i _ => pow_nonneg hs1 i))) hB0

theorem roundsDone_nonneg {c d : ℚ} (hc0 : 0 ≤ c) (hc1 : c < 1) (hd0 : 0 ≤ d) (hd1 : d < 1) (r m f : ℕ) : 0 ≤ roundsDone c d r m f := by
  unfold roundsDone
  have h1 := pow_le_one₀ (n := (m + r - 1) / r) hc0 hc1.le
  have h2 := pow_le_one₀ (n := f) hd0 hd1.le
  exact mul_nonneg (pow_nonneg (by linarith) _) (by linarith)

end kernel

/-! ### Whole runs -/

/-- What is assumed about a run: the random numbers, the parameters of `recom`, the law `μ` of its spanning trees, and the constraints, which are together the
condition `W`. -/
structure RecomRun (N d0 r fuel k : ℕ) (G : Graph V) (pop : V → ℚ) (target eps : ℚ) (μ : Finset V → Finset (V × V) → ℚ) (W : Finset (Finset V) → Bool)
    (span : Graph V → M Tape (WTree V)) (cs : List (Constraint Tape (PlanState V P))) : Prop where
  even : EvenTape G N
  repeats : 0 < r
  fuel : 0 < fuel
  law : TreeLaw N d0 G span μ
  decides : DecidesPlan G pop target eps k W cs

/-- The mean of a function of the list of the plans that `list(chain)` gives, for a chain with `n` moves, at most `f` proposals in each step and at most `m`
attempts in each proposal; runs that raise an exception or are not finished count as zero. -/
noncomputable def recomMean (N L r m : ℕ) (span : Graph V → M Tape (WTree V)) (fuel : ℕ) (G : Graph V) (pop : V → ℚ) (target eps : ℚ) (a : Assignment V P) (n : ℕ)
    (ch : Chain Tape (PlanState V P)) (f body : ℕ) (F : List (Finset (Finset V)) → ℚ) : ℚ :=
  avg N L (fun t => listValue (fun x => x.plan.plan) F (ch.list (recomChain N r m span fuel G pop target eps a n) f body t))

section runs
variable {N r m d0 fuel k n f body L : ℕ} {G : Graph V} {pop : V → ℚ} {target eps : ℚ} {span : Graph V → M Tape (WTree V)} {μ : Finset V → Finset (V × V) → ℚ}
  {W : Finset (Finset V) → Bool} {Q0 : Finset (Finset V)} {cs : List (Constraint Tape (PlanState V P))} {a b : Assignment V P}

/-- the constants of the comparison -/
structure RunBounds (G : Graph V) (pop : V → ℚ) (target eps : ℚ) (k : ℕ) (μ : Finset V → Finset (V × V) → ℚ) (W : Finset (Finset V) → Bool)
    (Q0 : Finset (Finset V)) (c d : ℚ) : Prop where
  c0 : 0 ≤ c
  c1 : c < 1
  d0 : 0 ≤ d
  d1 : d < 1
  attempt : ∀ Q, IsPlan G pop target eps k Q → ∀ e ∈ between G Q,
      0 ≤ 1 - cutChance G pop target eps μ ((touching Q e).biUnion id) ∧ 1 - cutChance G pop target eps μ ((touching Q e).biUnion id) ≤ c
  refused : ∀ Q ∈ recomClass G pop target eps k W Q0, 1 - allowedShare G pop target eps k μ W Q ≤ d

theorem exists_runBounds (hs : RecomSetting G pop target eps k) (hμ : TreeChances G μ) (hQ0 : IsPlan G pop target eps k Q0) (hW : W Q0 = true) :
    ∃ c d, RunBounds G pop target eps k μ W Q0 c d := by
  obtain ⟨c, h1, h2, h3⟩ := exists_attempt_bound hs hμ
  obtain ⟨d, h4, h5, h6⟩ := exists_refused_bound hs hμ hQ0 hW
  exact ⟨c, d, h1, h2, h4, h5, h3, h6⟩

theorem recom_sandwich (hs : RecomSetting G pop target eps k) (hμ : TreeChances G μ) (hQ0 : IsPlan G pop target eps k Q0) (hW : W Q0 = true) {c d : ℚ}
    (hb : RunBounds G pop target eps k μ W Q0 c d) (hrun : RecomRun N d0 r fuel k G pop target eps μ W span cs) (ha : b.Coherent)
    (hba : b.plan ∈ recomClass G pop target eps k W Q0) (ch : Chain Tape (PlanState V P)) (hch : ch.isValid = cs) (hf : 0 < f) (hbody : n + 1 < body)
    (hL : n * (f * recomDraws d0 m G) ≤ L) {F : List (Finset (Finset V)) → ℚ} (hF : ∀ l, 0 ≤ F l) :
    recomMean N L r m span fuel G pop target eps b n ch f body F ≤
        pathMean (recomClass G pop target eps k W Q0) (keptKernel G pop target eps k μ W) n (fun l => F (b.plan :: l)) b.plan ∧
      roundsDone c d r m f ^ n * pathMean (recomClass G pop target eps k W Q0) (keptKernel G pop target eps k μ W) n (fun l => F (b.plan :: l)) b.plan ≤
        recomMean N L r m span fuel G pop target eps b n ch f body F := by
  unfold recomMean
  rw [(tryLaw_recom (m := m) hs hrun.even hrun.repeats hrun.law hrun.fuel hrun.decides hQ0 hW).list hrun.even.1 n rfl ⟨⟨ha, (mem_recomClass.1 hba).1⟩, hba⟩ ch hch f body hf
    hbody F L hL]
  have hstep := fun Q hQ X hX => step_bounds hs hμ hQ0 hW hb.c0 hb.c1 hb.attempt hb.refused r m f (Q := Q) (X := X) hQ hX
  have := pathMean_dominated (S := recomClass G pop target eps k W Q0) (K := keptKernel G pop target eps k μ W)
    (roundsDone_nonneg hb.c0 hb.c1 hb.d0 hb.d1 r m f) (fun Q hQ X hX => (hstep Q hQ X hX).1) (fun Q hQ X hX => (hstep Q hQ X hX).2.1)
    (fun Q hQ X hX => (hstep Q hQ X hX).2.2) n (F := fun l => F (b.plan :: l)) (fun l => hF _) b.plan hba
  exact ⟨this.2.1, this.2.2⟩

theorem recom_certain (hs : RecomSetting G pop target eps k) (hμ : TreeChances G μ) (hQ0 : IsPlan G pop target eps k Q0) (hW : W Q0 = true) (n : ℕ)
    {Q : Finset (Finset V)} (hQ : Q ∈ recomClass G pop target eps k W Q0) {F : List (Finset (Finset V)) → ℚ}
    (hF : ∀ l, l.length = n → (∀ X ∈ l, X ∈ recomClass G pop target eps k W Q0) → F l = 1) :
    pathMean (recomClass G pop target eps k W Q0) (keptKernel G pop target eps k μ W) n F Q = 1 := by
  have hK := keptKernel_isKernel hs hμ hQ0 hW
  have e := pathMean_const hK 1 n Q hQ
  have h1 := pathMean_mono hK (f := F) (g := fun _ => 1) n (fun l hl hS => (hF l hl hS).le) Q hQ
  have h2 := pathMean_mono hK (f := fun _ => 1) (g := F) n (fun l hl hS => (hF l hl hS).ge) Q hQ
  linarith

theorem recomMean_add (F F' : List (Finset (Finset V)) → ℚ) (ch : Chain Tape (PlanState V P)) :
    recomMean N L r m span fuel G pop target eps b n ch f body (fun l => F l + F' l) =
      recomMean N L r m span fuel G pop target eps b n ch f body F + recomMean N L r m span fuel G pop target eps b n ch f body F' := by
  unfold recomMean
  rw [← avg_add]
  refine avg_congr N L (fun t => ?_)
  rcases ch.list (recomChain N r m span fuel G pop target eps b n) f body t with _ | ⟨_ | xs, _, _⟩ <;> simp [listValue]

theorem recomMean_congr {F F' : List (Finset (Finset V)) → ℚ} (h : ∀ l, F l = F' l) (ch : Chain Tape (PlanState V P)) :
    recomMean N L r m span fuel G pop target eps b n ch f body F = recomMean N L r m span fuel G pop target eps b n ch f body F' := by
  rw [funext h]

/-- enough proposals, and then enough attempts, leave nearly all of the probability -/
theorem enough_rounds {c d : ℚ} (hc0 : 0 ≤ c) (hc1 : c < 1) (hd0 : 0 ≤ d) (hd1 : d < 1) (n : ℕ) {δ : ℚ} (hδ : 0 < δ) :
    ∃ f0 : ℕ, ∀ f, f0 ≤ f → ∀ r, 0 < r → ∃ m0, ∀ m, m0 ≤ m → 1 - δ ≤ roundsDone c d r m f ^ n := by
  obtain ⟨f0, hf0⟩ := enough_tries hd0 hd1 n (half_pos hδ)
  refine ⟨f0, fun f hf r hr => ?_⟩
  obtain ⟨j0, hj0⟩ := enough_tries hc0 hc1 (f * n) (half_pos hδ)
  refine ⟨j0 * r, fun m hm => ?_⟩
  have hj : j0 ≤ (m + r - 1) / r := (Nat.le_div_iff_mul_le hr).2 (by omega)
  have h1 := hf0 f hf
  have h2 := hj0 _ hj
  unfold roundsDone
  rw [mul_pow, ← pow_mul]
  have h3 : 0 ≤ (1 - d ^ f) ^ n := pow_nonneg (by linarith [pow_le_one₀ (n := f) hd0 hd1.le]) n
  have h4 : (1 - d ^ f) ^ n ≤ 1 := pow_le_one₀ (by linarith [pow_le_one₀ (n := f) hd0 hd1.le]) (by linarith [pow_nonneg hd0 f])
  nlinarith

end runs

section theorems
variable {k : ℕ} {G : Graph V} {pop : V → ℚ} {target eps : ℚ} {μ : Finset V → Finset (V × V) → ℚ} {W : Finset (Finset V) → Bool} {Q0 : Finset (Finset V)}

/-- **C105** (the law of a run) The probability that a run gives a list of plans is at most the product of the transition probabilities of `keptKernel`, and the bounds on the
numbers of attempts and proposals take away no more than a part that goes to zero exponentially. -/
theorem C105_run (hs : RecomSetting G pop target eps k) (hμ : TreeChances G μ) (hQ0 : IsPlan G pop target eps k Q0) (hW : W Q0 = true) :
    ∃ c d, 0 ≤ c ∧ c < 1 ∧ 0 ≤ d ∧ d < 1 ∧ ∀ (N d0 r fuel : ℕ) (span : Graph V → M Tape (WTree V)) (cs : List (Constraint Tape (PlanState V P))),
      RecomRun N d0 r fuel k G pop target eps μ W span cs → ∀ b : Assignment V P, b.Coherent → b.plan ∈ recomClass G pop target eps k W Q0 →
      ∀ p : List (Finset (Finset V)), (∀ Q ∈ p, Q ∈ recomClass G pop target eps k W Q0) →
      ∀ ch : Chain Tape (PlanState V P), ch.isValid = cs → ∀ m f body L, 0 < f → p.length + 1 < body → p.length * (f * recomDraws d0 m G) ≤ L →
        recomMean N L r m span fuel G pop target eps b p.length ch f body (fun l => if l = b.plan :: p then 1 else 0) ≤
            pathProb (keptKernel G pop target eps k μ W) b.plan p ∧
          roundsDone c d r m f ^ p.length * pathProb (keptKernel G pop target eps k μ W) b.plan p ≤
            recomMean N L r m span fuel G pop target eps b p.length ch f body (fun l => if l = b.plan :: p then 1 else 0) := by
  obtain ⟨c, d, hb⟩ := exists_runBounds hs hμ hQ0 hW
  refine ⟨c, d, hb.c0, hb.c1, hb.d0, hb.d1, ?_⟩
  intro N d0 r fuel span cs hrun b hbc hba p hp ch hch m f body L hf hbody hL
  have := recom_sandwich hs hμ hQ0 hW hb hrun hbc hba ch hch hf hbody hL (F := fun l => if l = b.plan :: p then 1 else 0) (fun l => by split_ifs <;> norm_num)
  rw [← pathMean_path (S := recomClass G pop target eps k W Q0) p hp,
    pathMean_congr p.length (g := fun l => if b.plan :: l = b.plan :: p then 1 else 0) (fun l _ => by simp) b.plan]
  exact this

/-- **C105** (finished runs) The probability that the run is finished, with the right number of plans, all of them allowed and within reach of the initial plan, is at least
`roundsDone ^ n`. -/
theorem C105_complete (hs : RecomSetting G pop target eps k) (hμ : TreeChances G μ) (hQ0 : IsPlan G pop target eps k Q0) (hW : W Q0 = true) :
    ∃ c d, 0 ≤ c ∧ c < 1 ∧ 0 ≤ d ∧ d < 1 ∧ ∀ (N d0 r fuel : ℕ) (span : Graph V → M Tape (WTree V)) (cs : List (Constraint Tape (PlanState V P))),
      RecomRun N d0 r fuel k G pop target eps μ W span cs → ∀ b : Assignment V P, b.Coherent → b.plan ∈ recomClass G pop target eps k W Q0 →
      ∀ ch : Chain Tape (PlanState V P), ch.isValid = cs → ∀ n m f body L, 0 < f → n + 1 < body → n * (f * recomDraws d0 m G) ≤ L →
        roundsDone c d r m f ^ n ≤ recomMean N L r m span fuel G pop target eps b n ch f body
          (fun l => if (∀ Q ∈ l, Q ∈ recomClass G pop target eps k W Q0) ∧ l.length = n + 1 then 1 else 0) := by
  obtain ⟨c, d, hb⟩ := exists_runBounds hs hμ hQ0 hW
  refine ⟨c, d, hb.c0, hb.c1, hb.d0, hb.d1, ?_⟩
  intro N d0 r fuel span cs hrun b hbc hba ch hch n m f body L hf hbody hL
  have := (recom_sandwich hs hμ hQ0 hW hb hrun hbc hba ch hch hf hbody hL
    (F := fun l => if (∀ Q ∈ l, Q ∈ recomClass G pop target eps k W Q0) ∧ l.length = n + 1 then 1 else 0) (fun l => by split_ifs <;> norm_num)).2
  rw [recom_certain hs hμ hQ0 hW n hba (fun l hl hS => ?_), mul_one] at this
  · exact this
  · rw [if_pos]
    refine ⟨fun Q hQ => ?_, by rw [List.length_cons, hl]⟩
    rcases List.mem_cons.1 hQ with rfl | hQ
    · exact hba
    · exact hS Q hQ

/-- **C105** (never leaves) No run gives a list with a plan that cannot be reached through allowed exchanges of two districts. -/
theorem C105_never_leaves (hs : RecomSetting G pop target eps k) (hμ : TreeChances G μ) (hQ0 : IsPlan G pop target eps k Q0) (hW : W Q0 = true)
    (N d0 r fuel : ℕ) (span : Graph V → M Tape (WTree V)) (cs : List (Constraint Tape (PlanState V P)))
    (hrun : RecomRun N d0 r fuel k G pop target eps μ W span cs) (b : Assignment V P) (hbc : b.Coherent) (hba : b.plan ∈ recomClass G pop target eps k W Q0)
    (ch : Chain Tape (PlanState V P)) (hch : ch.isValid = cs) (n m f body L : ℕ) (hf : 0 < f) (hbody : n + 1 < body) (hL : n * (f * recomDraws d0 m G) ≤ L) :
    recomMean N L r m span fuel G pop target eps b n ch f body (fun l => if ∃ Q ∈ l, Q ∉ recomClass G pop target eps k W Q0 then 1 else 0) = 0 := by
  obtain ⟨c, d, hb⟩ := exists_runBounds hs hμ hQ0 hW
  have hK := keptKernel_isKernel hs hμ hQ0 hW
  obtain ⟨h1, h2⟩ := recom_sandwich hs hμ hQ0 hW hb hrun hbc hba ch hch hf hbody hL
    (F := fun l => if ∃ Q ∈ l, Q ∉ recomClass G pop target eps k W Q0 then 1 else 0) (fun l => by split_ifs <;> norm_num)
  have h3 : ∀ l : List (Finset (Finset V)), l.length = n → (∀ X ∈ l, X ∈ recomClass G pop target eps k W Q0) →
      (if ∃ Q ∈ b.plan :: l, Q ∉ recomClass G pop target eps k W Q0 then (1 : ℚ) else 0) = 0 := by
    intro l _ hl
    refine if_neg ?_
    rintro ⟨Q, hQ, hno⟩
    rcases List.mem_cons.1 hQ with rfl | hQ
    · exact hno hba
    · exact hno (hl Q hQ)
  have e := pathMean_const hK 0 n b.plan hba
  have h4 := pathMean_mono hK (f := fun l => if ∃ Q ∈ b.plan :: l, Q ∉ recomClass G pop target eps k W Q0 then (1 : ℚ) else 0) (g := fun _ => 0) n
    (fun l hl hS => (h3 l hl hS).le) b.plan hba
  have h5 := pathMean_mono hK (f := fun _ => 0) (g := fun l => if ∃ Q ∈ b.plan :: l, Q ∉ recomClass G pop target eps k W Q0 then (1 : ℚ) else 0) n
    (fun l hl hS => (h3 l hl hS).ge) b.plan hba
  rw [e] at h4 h5
  rw [le_antisymm h4 h5] at h1 h2
  rw [mul_zero] at h2
  exact le_antisymm h1 h2

/-- **C105** (the stationary law) There is exactly one law on the plans within reach that a step does not change, and it gives every one of them a positive probability. -/
theorem C105_stationary (hs : RecomSetting G pop target eps k) (hμ : TreeChances G μ) (hQ0 : IsPlan G pop target eps k Q0) (hW : W Q0 = true) :
    ∃ π : Finset (Finset V) → ℚ, (∀ Q ∈ recomClass G pop target eps k W Q0, 0 < π Q) ∧ ∑ Q ∈ recomClass G pop target eps k W Q0, π Q = 1 ∧
      (∀ X ∈ recomClass G pop target eps k W Q0, ∑ Q ∈ recomClass G pop target eps k W Q0, π Q * keptKernel G pop target eps k μ W Q X = π X) ∧
      ∀ π', Invariant (recomClass G pop target eps k W Q0) (keptKernel G pop target eps k μ W) π' → ∀ Q ∈ recomClass G pop target eps k W Q0, π' Q = π Q := by
  have hK := keptKernel_isKernel hs hμ hQ0 hW
  have hc := keptKernel_connects hs hμ hQ0 hW
  obtain ⟨π, hπ⟩ := exists_invariant hK ⟨Q0, recomClass_self hQ0⟩
  exact ⟨π, hπ.pos hK hc, hπ.sum, hπ.step, fun π' hπ' => hπ.unique hπ' hK hc⟩

/-- **C105** (the ensemble) The mean of a score over the plans of a run deviates from its mean under the stationary law with a probability of order one over the length, whatever
the initial plan within reach, the numbers of attempts and the bound on the proposals. -/
theorem C105_ensemble (hs : RecomSetting G pop target eps k) (hμ : TreeChances G μ) (hQ0 : IsPlan G pop target eps k Q0) (hW : W Q0 = true)
    (π : Finset (Finset V) → ℚ) (hπ : Invariant (recomClass G pop target eps k W Q0) (keptKernel G pop target eps k μ W) π) (score : Finset (Finset V) → ℚ) :
    ∃ C, 0 ≤ C ∧ ∀ (N d0 r fuel : ℕ) (span : Graph V → M Tape (WTree V)) (cs : List (Constraint Tape (PlanState V P))),
      RecomRun N d0 r fuel k G pop target eps μ W span cs → ∀ b : Assignment V P, b.Coherent → b.plan ∈ recomClass G pop target eps k W Q0 →
      ∀ ch : Chain Tape (PlanState V P), ch.isValid = cs → ∀ n m f body L, 0 < f → n + 1 < body → n * (f * recomDraws d0 m G) ≤ L →
      ∀ ε, 0 < ε → recomMean N L r m span fuel G pop target eps b n ch f body (fun l => if ε ≤ |(l.map score).sum / l.length -
          ∑ Q ∈ recomClass G pop target eps k W Q0, π Q * score Q| then 1 else 0) ≤ C / ((n + 1 : ℕ) * ε ^ 2) := by
  obtain ⟨C, hC, hall⟩ := large_numbers_connected (keptKernel_isKernel hs hμ hQ0 hW) hπ (keptKernel_connects hs hμ hQ0 hW) score
  obtain ⟨c, d, hb⟩ := exists_runBounds hs hμ hQ0 hW
  refine ⟨C, hC, ?_⟩
  intro N d0 r fuel span cs hrun b hbc hba ch hch n m f body L hf hbody hL ε hε
  exact (recom_sandwich hs hμ hQ0 hW hb hrun hbc hba ch hch hf hbody hL
    (F := fun l => if ε ≤ |(l.map score).sum / l.length - ∑ Q ∈ recomClass G pop target eps k W Q0, π Q * score Q| then 1 else 0)
    (fun l => by split_ifs <;> norm_num)).1.trans (hall n ε hε _ hba)

/-- **C105** (convergence) With enough steps, then enough proposals in each step, then enough attempts in each proposal, the run is finished and the mean of the score is as close as
one likes to its mean under the stationary law with a probability as close to one as one likes. -/
theorem C105_converges (hs : RecomSetting G pop target eps k) (hμ : TreeChances G μ) (hQ0 : IsPlan G pop target eps k Q0) (hW : W Q0 = true)
    (π : Finset (Finset V) → ℚ) (hπ : Invariant (recomClass G pop target eps k W Q0) (keptKernel G pop target eps k μ W) π) (score : Finset (Finset V) → ℚ)
    (ε δ : ℚ) (hε : 0 < ε) (hδ : 0 < δ) :
    ∃ n0, ∀ n, n0 ≤ n → ∃ f0, ∀ f, f0 ≤ f → ∀ r, 0 < r → ∃ m0, ∀ m, m0 ≤ m →
      ∀ (N d0 fuel : ℕ) (span : Graph V → M Tape (WTree V)) (cs : List (Constraint Tape (PlanState V P))),
      RecomRun N d0 r fuel k G pop target eps μ W span cs → ∀ b : Assignment V P, b.Coherent → b.plan ∈ recomClass G pop target eps k W Q0 →
      ∀ ch : Chain Tape (PlanState V P), ch.isValid = cs → ∀ body L, n + 1 < body → n * (f * recomDraws d0 m G) ≤ L →
        1 - δ ≤ recomMean N L r m span fuel G pop target eps b n ch f body (fun l => if |(l.map score).sum / l.length -
          ∑ Q ∈ recomClass G pop target eps k W Q0, π Q * score Q| < ε then 1 else 0) := by
  obtain ⟨C, hC, hall⟩ := C105_ensemble (P := P) hs hμ hQ0 hW π hπ score
  obtain ⟨c, d, hb⟩ := exists_runBounds hs hμ hQ0 hW
  obtain ⟨n0, hn0⟩ := exists_nat_gt (C / (ε ^ 2 * (δ / 2)))
  refine ⟨n0, fun n hn => ?_⟩
  obtain ⟨f0, hf0⟩ := enough_rounds hb.c0 hb.c1 hb.d0 hb.d1 n (half_pos hδ)
  refine ⟨f0 + 1, fun f hf r hr => ?_⟩
  obtain ⟨m0, hm0⟩ := hf0 f (by omega) r hr
  refine ⟨m0, fun m hm N d0 fuel span cs hrun b hbc hba ch hch body L hbody hL => ?_⟩
  have hf' : 0 < f := by omega
  have h1 := (recom_sandwich hs hμ hQ0 hW hb hrun hbc hba ch hch hf' hbody hL (F := fun _ => 1) (fun l => by norm_num)).2
  rw [recom_certain hs hμ hQ0 hW n hba (fun l _ _ => rfl), mul_one] at h1
  have h2 := hall N d0 r fuel span cs hrun b hbc hba ch hch n m f body L hf' hbody hL ε hε
  have h3 := hm0 m hm
  have h4 : C / ((n + 1 : ℕ) * ε ^ 2) ≤ δ / 2 := by
    rw [div_lt_iff₀ (by positivity)] at hn0
    rw [div_le_iff₀ (by positivity)]
    have : (n0 : ℚ) ≤ (n + 1 : ℕ) := by exact_mod_cast hn.trans (Nat.le_succ n)
    have h5 : (n0 : ℚ) * (ε ^ 2 * (δ / 2)) ≤ (n + 1 : ℕ) * (ε ^ 2 * (δ / 2)) := mul_le_mul_of_nonneg_right this (by positivity)
    linarith
  have h5 : recomMean N L r m span fuel G pop target eps b n ch f body (fun _ => 1) =
      recomMean N L r m span fuel G pop target eps b n ch f body (fun l => if |(l.map score).sum / l.length -
        ∑ Q ∈ recomClass G pop target eps k W Q0, π Q * score Q| < ε then 1 else 0) +
      recomMean N L r m span fuel G pop target eps b n ch f body (fun l => if ε ≤ |(l.map score).sum / l.length -
        ∑ Q ∈ recomClass G pop target eps k W Q0, π Q * score Q| then 1 else 0) := by
    rw [← recomMean_add]
    refine recomMean_congr (fun l => ?_) ch
    by_cases h : ε ≤ |(l.map score).sum / l.length - ∑ Q ∈ recomClass G pop target eps k W Q0, π Q * score Q|
    · rw [if_pos h, if_neg (not_lt.2 h)]; norm_num
    · rw [if_neg h, if_pos (not_le.1 h)]; norm_num
  linarith

/-- **C105** (the last plan) The law of the last plan of a run goes to the stationary law exponentially, from every initial plan within reach. -/
theorem C105_limit (hs : RecomSetting G pop target eps k) (hμ : TreeChances G μ) (hQ0 : IsPlan G pop target eps k Q0) (hW : W Q0 = true)
    (π : Finset (Finset V) → ℚ) (hπ : Invariant (recomClass G pop target eps k W Q0) (keptKernel G pop target eps k μ W) π) :
    ∃ j γ c d, 0 < j ∧ 0 < γ ∧ γ ≤ 1 ∧ 0 ≤ c ∧ c < 1 ∧ 0 ≤ d ∧ d < 1 ∧
      ∀ (N d0 r fuel : ℕ) (span : Graph V → M Tape (WTree V)) (cs : List (Constraint Tape (PlanState V P))),
      RecomRun N d0 r fuel k G pop target eps μ W span cs → ∀ b : Assignment V P, b.Coherent → b.plan ∈ recomClass G pop target eps k W Q0 →
      ∀ ch : Chain Tape (PlanState V P), ch.isValid = cs → ∀ n m f body L, 0 < f → n + 1 < body → n * (f * recomDraws d0 m G) ≤ L →
      ∀ Q ∈ recomClass G pop target eps k W Q0,
        |recomMean N L r m span fuel G pop target eps b n ch f body (fun l => if l.getLast? = some Q then 1 else 0) - π Q| ≤
          (1 - γ) ^ (n / j) + (1 - roundsDone c d r m f ^ n) := by
  have hK := keptKernel_isKernel hs hμ hQ0 hW
  obtain ⟨j, γ, hγ, hfor⟩ := exists_forgets hK (fun Q hQ => keptKernel_self_pos hs hμ hQ0 hW hQ) hπ (keptKernel_connects hs hμ hQ0 hW)
  obtain ⟨c, d, hb⟩ := exists_runBounds hs hμ hQ0 hW
  refine ⟨j, γ, c, d, hfor.pos, hγ, hfor.le_one, hb.c0, hb.c1, hb.d0, hb.d1, ?_⟩
  intro N d0 r fuel span cs hrun b hbc hba ch hch n m f body L hf hbody hL Q hQ
  obtain ⟨h1, h2⟩ := recom_sandwich hs hμ hQ0 hW hb hrun hbc hba ch hch hf hbody hL (F := fun l => if l.getLast? = some Q then 1 else 0)
    (fun l => by split_ifs <;> norm_num)
  have e : ∀ l : List (Finset (Finset V)), (if (b.plan :: l).getLast? = some Q then (1 : ℚ) else 0) = atState Q (l.getLast?.getD b.plan) := by
    intro l
    unfold atState
    rw [List.getLast?_cons]
    simp
  rw [pathMean_congr n (fun l _ => e l), pathMean_last] at h1 h2
  set v := after (recomClass G pop target eps k W Q0) (keptKernel G pop target eps k μ W) n (atState Q) b.plan with hv
  have hmean : ∑ X ∈ recomClass G pop target eps k W Q0, π X * atState Q X = π Q := by
    unfold atState
    simp [hQ]
  have hπle : ∀ X ∈ recomClass G pop target eps k W Q0, π X ≤ 1 := by
    intro X hX
    rw [← hπ.sum]
    exact Finset.single_le_sum hπ.nonneg hX
  have h3 := hfor.converges hK hπ (f := atState Q) (B := 1) (fun X hX => by
    rw [hmean]
    have := hπ.nonneg Q hQ
    have := hπle Q hQ
    unfold atState
    split_ifs <;> rw [abs_le] <;> constructor <;> linarith) n b.plan hba
  rw [hmean, mul_one, ← hv] at h3
  have hv0 : 0 ≤ v := by
    have := pathMean_mono hK (f := fun _ => 0) (g := fun l => atState Q (l.getLast?.getD b.plan)) n (fun l _ _ => by unfold atState; split_ifs <;> norm_num) b.plan hba
    rw [pathMean_const hK, pathMean_last] at this
    · exact this
    · exact hba
  have hv1 : v ≤ 1 := by
    have := pathMean_mono hK (f := fun l => atState Q (l.getLast?.getD b.plan)) (g := fun _ => 1) n (fun l _ _ => by unfold atState; split_ifs <;> norm_num) b.plan hba
    rw [pathMean_const hK, pathMean_last] at this
    · exact this
    · exact hba
  have hR : 0 ≤ roundsDone c d r m f ^ n := pow_nonneg (roundsDone_nonneg hb.c0 hb.c1 hb.d0 hb.d1 r m f) n
  have hR1 : roundsDone c d r m f ^ n ≤ 1 := by
    refine pow_le_one₀ (roundsDone_nonneg hb.c0 hb.c1 hb.d0 hb.d1 r m f) ?_
    unfold roundsDone
    have g1 := pow_le_one₀ (n := (m + r - 1) / r) hb.c0 hb.c1.le
    have g2 := pow_nonneg hb.c0 ((m + r - 1) / r)
    have g3 := pow_le_one₀ (n := f) hb.d0 hb.d1.le
    have g4 := pow_nonneg hb.d0 f
    exact mul_le_one₀ (pow_le_one₀ (by linarith) (by linarith)) (by linarith) (by linarith)
  rw [abs_le] at h3 ⊢
  constructor <;> nlinarith

end theorems

/-! ### The laws of the spanning trees -/

theorem treeChances_uniform {G : Graph V} (hG : G.WF) : TreeChances G (uniformLaw G) := by
  refine ⟨fun U hU hcon => ?_, fun U hU hcon E _ => ?_⟩
  · have h := numTrees_pos' hG hU hcon
    unfold uniformLaw
    rw [Finset.sum_const, nsmul_eq_mul]
    have : ((treeSets (G.subgraph U)).card : ℚ) = numTrees G U := rfl
    rw [this]
    exact mul_one_div_cancel (by exact_mod_cast h.ne')
  · have h := numTrees_pos' hG hU hcon
    exact one_div_pos.2 (by exact_mod_cast h)

/-- **C105** (uniform trees) The theorems hold for `recom` with `uniform_spanning_tree`: every run with these trees is one of those considered. -/
theorem C105_uniform {G : Graph V} (hG : G.WF) (N : ℕ) (hN : EvenTape G N) :
    TreeChances G (uniformLaw G) ∧ TreeLaw N 1 G (uniformSpan N) (uniformLaw G) := ⟨treeChances_uniform hG, uniform_treeLaw hG hN.1 hN.2⟩

/-- **C105** (the default trees) The theorems hold for `recom` with its default `random_spanning_tree`: every spanning tree of every connected piece has a positive probability. -/
theorem C105_default {G : Graph V} (hG : G.WF) (N : ℕ) (hN : 2 ≤ N) :
    TreeChances G (treeChance N G) ∧ TreeLaw N G.edges.card G (kruskalSpan N) (treeChance N G) := by
  classical
  have hl := kruskal_treeLaw hG (by omega : 0 < N)
  refine ⟨⟨fun U hU hcon => (hl.on U hU hcon).sum, fun U hU hcon E hE => ?_⟩, hl⟩
  obtain ⟨t, ht, hcan⟩ := can_randomSpanningTree hN (fun _ _ => (none : Option Unit)) (hG.subgraph U) hE
  obtain ⟨L0, hL0⟩ := hcan.prob_pos (by omega : 0 < N)
  have h1 := hL0 (L0 + G.edges.card) (by omega)
  have h2 := avg_draws (by omega : 0 < N) ((draws_randomSpanningTree N (fun _ _ => (none : Option Unit)) none (G.subgraph U)).mono (subgraph_edges_card G U))
    (Φ := fun r _ => if r = .ok t then 1 else 0) (ψ := fun r => if r = .ok t then 1 else 0) 0 (L0 + G.edges.card) (by omega)
    (fun r L' _ => avg_const (by omega) L' _) G.edges.card le_rfl
  unfold treeChance prob
  unfold prob at h1
  refine lt_of_lt_of_le (h1.trans_eq h2) (avg_mono _ (fun w => ?_))
  by_cases h : (randomSpanningTree (uniRand N) (fun _ _ => (none : Option Unit)) none (G.subgraph U) w).1 = .ok t
  · rw [if_pos h, if_pos]
    exact ⟨t, h, ht⟩
  · rw [if_neg h]
    split_ifs <;> norm_num

/-! ### Two districts, and tolerances smaller than the nodes -/

section special
variable {k : ℕ} {G : Graph V} {pop : V → ℚ} {target eps : ℚ} {μ : Finset V → Finset (V × V) → ℚ} {W : Finset (Finset V) → Bool} {Q0 Q X : Finset (Finset V)}

theorem two_touching (hs : RecomSetting G pop target eps 2) (hQ : IsPlan G pop target eps 2 Q) {e : V × V} (he : e ∈ between G Q) : touching Q e = Q := by
  obtain ⟨s, hs', t, ht', hst, htch, -⟩ := cut_pair hs hQ he
  rw [htch]
  refine Finset.eq_of_subset_of_card_le ?_ (by rw [hQ.2.1, Finset.card_pair hst])
  intro Y hY
  rw [Finset.mem_insert, Finset.mem_singleton] at hY
  rcases hY with rfl | rfl <;> assumption

theorem partition_nodes (hQ : IsPlan G pop target eps k Q) : Q.biUnion id = G.nodes := by
  ext v
  rw [Finset.mem_biUnion, hQ.1.cover v]
  rfl

theorem recom_two_kernel (hs : RecomSetting G pop target eps 2) (hQ : IsPlan G pop target eps 2 Q) :
    recomKernel G pop target eps μ Q X = drawChance G pop target eps μ X / cutChance G pop target eps μ G.nodes := by
  unfold recomKernel
  rw [Finset.sum_congr rfl (fun e he => show _ = drawChance G pop target eps μ X / cutChance G pop target eps μ G.nodes by
    unfold resplitChance
    rw [two_touching hs hQ he, Finset.sdiff_self, if_pos (Finset.empty_subset _), Finset.sdiff_empty, partition_nodes hQ]), Finset.sum_const, nsmul_eq_mul]
  rw [mul_div_assoc, mul_comm, div_mul_cancel₀ _ (between_card_pos hs hQ).ne']

theorem two_class (hQ0 : IsPlan G pop target eps 2 Q0) (hW : W Q0 = true) :
    recomClass G pop target eps 2 W Q0 = (plans G pop target eps 2).filter (fun X => W X = true) := by
  ext X
  constructor
  · intro hX
    exact Finset.mem_filter.2 ⟨mem_plans.2 (mem_recomClass.1 hX).1, recomClass_allowed hQ0 hW hX⟩
  · intro hX
    obtain ⟨h1, h2⟩ := Finset.mem_filter.1 hX
    rw [mem_plans] at h1
    refine recomClass_closed (recomClass_self hQ0) h1 h2 ?_
    by_cases h : X = Q0
    · exact .inl h
    · exact .inr (two_exchange hQ0 h1 (Ne.symm h))

theorem two_kept (hs : RecomSetting G pop target eps 2) (hμ : TreeChances G μ) (hQ : IsPlan G pop target eps 2 Q) :
    keptKernel G pop target eps 2 μ W Q X = drawChance G pop target eps μ X /
      ∑ Y ∈ (plans G pop target eps 2).filter (fun Y => W Y = true), drawChance G pop target eps μ Y := by
  have hcut : cutChance G pop target eps μ G.nodes ≠ 0 := by
    obtain ⟨e, he⟩ := between_nonempty hs hQ
    obtain ⟨s, hs', t, ht', hst, htch, hcon, -⟩ := cut_pair hs hQ he
    have := cutChance_pair_pos hs.wf hμ hQ hs' ht' hst hcon
    rw [← biUnion_pair, ← htch, two_touching hs hQ he, partition_nodes hQ] at this
    exact this.ne'
  unfold keptKernel allowedShare
  rw [recom_two_kernel hs hQ, Finset.sum_congr rfl (fun Y _ => recom_two_kernel hs hQ), ← Finset.sum_div]
  exact div_div_div_cancel_right₀ hcut _ _

/-- **C105** (two districts) With two districts all allowed plans are within reach, and the plans of a run after the first are independent draws from one law: that of the trees with one edge between the
districts, an allowed plan counting as often as it is drawn. -/
theorem C105_two_districts (hs : RecomSetting G pop target eps 2) (hμ : TreeChances G μ) (hQ0 : IsPlan G pop target eps 2 Q0) (hW : W Q0 = true) :
    recomClass G pop target eps 2 W Q0 = (plans G pop target eps 2).filter (fun X => W X = true) ∧
    (∀ Q, IsPlan G pop target eps 2 Q → ∀ p : List (Finset (Finset V)), (∀ X ∈ p, IsPlan G pop target eps 2 X) →
      pathProb (keptKernel G pop target eps 2 μ W) Q p = (p.map (fun X => drawChance G pop target eps μ X /
        ∑ Y ∈ (plans G pop target eps 2).filter (fun Y => W Y = true), drawChance G pop target eps μ Y)).prod) ∧
    Invariant (recomClass G pop target eps 2 W Q0) (keptKernel G pop target eps 2 μ W) (fun X => drawChance G pop target eps μ X /
        ∑ Y ∈ (plans G pop target eps 2).filter (fun Y => W Y = true), drawChance G pop target eps μ Y) := by
  have hK := keptKernel_isKernel hs hμ hQ0 hW
  have hself := recomClass_self (W := W) hQ0
  refine ⟨two_class hQ0 hW, ?_, ?_⟩
  · intro Q hQ p
    induction p generalizing Q with
    | nil => intro _; rfl
    | cons X p ih =>
      intro hp
      rw [List.map_cons, List.prod_cons, ← ih X (hp X (by simp)) (fun Y hY => hp Y (by simp [hY])), ← two_kept hs hμ hQ]
      rfl
  · have hsum := hK.sum Q0 hself
    rw [Finset.sum_congr rfl (fun X _ => two_kept hs hμ hQ0)] at hsum
    refine ⟨fun X hX => ?_, hsum, fun X hX => ?_⟩
    · have := hK.nonneg Q0 hself X hX
      rwa [two_kept hs hμ hQ0] at this
    · rw [Finset.sum_congr rfl (fun Q hQ => by rw [two_kept hs hμ (mem_recomClass.1 hQ).1]), ← Finset.sum_mul, hsum, one_mul]

/-- the edges whose ends are in two given districts -/
theorem touching_seam (hG : G.WF) (hQ : IsPlan G pop target eps k Q) {s t : Finset V} (hs : s ∈ Q) (ht : t ∈ Q) (hst : s ≠ t) :
    (between G Q).filter (fun e => touching Q e = {s, t}) = seamOf G s t := by
  ext e
  rw [Finset.mem_filter, mem_seamOf]
  constructor
  · rintro ⟨he, htch⟩
    have hedge := ((mem_between hQ.1 hG).1 he).1
    refine ⟨hedge, ?_⟩
    obtain ⟨s', hs', t', ht', hst', h1, h2, htch'⟩ := exists_touching hQ.1 hG he
    rw [htch'] at htch
    have ms : s' ∈ ({s, t} : Finset (Finset V)) := by rw [← htch]; simp
    have mt : t' ∈ ({s, t} : Finset (Finset V)) := by rw [← htch]; simp
    rw [Finset.mem_insert, Finset.mem_singleton] at ms mt
    rcases ms with ms | ms <;> rcases mt with mt | mt
    · exact absurd (ms.trans mt.symm) hst'
    · exact .inl ⟨ms ▸ h1, mt ▸ h2⟩
    · exact .inr ⟨ms ▸ h1, mt ▸ h2⟩
    · exact absurd (ms.trans mt.symm) hst'
  · rintro ⟨hedge, h⟩
    have hb : ∀ Y ∈ Q, ¬ (e.1 ∈ Y ∧ e.2 ∈ Y) := by
      rintro Y hY ⟨y1, y2⟩
      rcases h with ⟨h1, h2⟩ | ⟨h1, h2⟩
      · exact hst ((hQ.1.disj s hs Y hY _ h1 y1).trans (hQ.1.disj Y hY t ht _ y2 h2))
      · exact hst ((hQ.1.disj s hs Y hY _ h2 y2).trans (hQ.1.disj Y hY t ht _ y1 h1))
    refine ⟨(mem_between hQ.1 hG).2 ⟨hedge, hb⟩, ?_⟩
    rcases h with ⟨h1, h2⟩ | ⟨h1, h2⟩
    · exact touching_eq hQ.1 hs ht h1 h2
    · rw [touching_eq hQ.1 ht hs h1 h2, Finset.pair_comm]

/-- the probability of an exchange -/
theorem recomKernel_exchange (hs : RecomSetting G pop target eps k) (hQ : IsPlan G pop target eps k Q) (hX : IsPlan G pop target eps k X) {s t A B : Finset V}
    (h1 : Q \ X = {s, t}) (h2 : X \ Q = {A, B}) (hst : s ≠ t) (hAB : A ≠ B) :
    recomKernel G pop target eps μ Q X = (seamOf G s t).card / ((between G Q).card : ℚ) *
      (splitChance G pop target eps μ A B / cutChance G pop target eps μ (s ∪ t)) := by
  obtain ⟨hunion, hdis, hA0, hB0, -⟩ := two_parts hQ.1 hX.1 h1 h2 hAB
  have ms : s ∈ Q \ X := by rw [h1]; simp
  have mt : t ∈ Q \ X := by rw [h1]; simp
  have hrest : Q \ {s, t} ⊆ X := by
    intro Y hY
    rw [← h1, Finset.mem_sdiff, Finset.mem_sdiff] at hY
    by_contra hno
    exact hY.2 ⟨hY.1, hno⟩
  have hnew : X \ (Q \ {s, t}) = {A, B} := by
    rw [← h2]
    ext Y
    rw [Finset.mem_sdiff, Finset.mem_sdiff, Finset.mem_sdiff]
    constructor
    · rintro ⟨hY, hno⟩
      refine ⟨hY, fun hYQ => hno ⟨hYQ, ?_⟩⟩
      rw [← h1, Finset.mem_sdiff]
      exact fun h => h.2 hY
    · rintro ⟨hY, hno⟩
      exact ⟨hY, fun h => hno h.1⟩
  have hterm : ∀ e ∈ between G Q, resplitChance G pop target eps μ Q (touching Q e) X =
      if touching Q e = {s, t} then splitChance G pop target eps μ A B / cutChance G pop target eps μ (s ∪ t) else 0 := by
    intro e he
    by_cases htch : touching Q e = {s, t}
    · rw [if_pos htch, htch]
      unfold resplitChance
      rw [if_pos hrest, hnew, drawChance_pair hdis, biUnion_pair]
    · rw [if_neg htch]
      unfold resplitChance
      refine if_neg (fun hsub => htch ?_)
      obtain ⟨s', hs', t', ht', hst', htch', -⟩ := cut_pair hs hQ he
      rw [htch', ← h1]
      rw [htch'] at hsub
      symm
      refine Finset.eq_of_subset_of_card_le (fun Y hY => ?_) (by rw [h1, Finset.card_pair hst, Finset.card_pair hst'])
      by_contra hno
      exact (Finset.mem_sdiff.1 hY).2 (hsub (Finset.mem_sdiff.2 ⟨(Finset.mem_sdiff.1 hY).1, hno⟩))
  unfold recomKernel
  rw [Finset.sum_congr rfl hterm, ← Finset.sum_filter, touching_seam hs.wf hQ (Finset.mem_sdiff.1 ms).1 (Finset.mem_sdiff.1 mt).1 hst, Finset.sum_const, nsmul_eq_mul]
  ring

/-- the number of cut edges times the number of ways to choose a spanning tree in every district -/
noncomputable def cutTreeWeightOf (G : Graph V) (Q : Finset (Finset V)) : ℚ := (between G Q).card * treeWeight G Q

theorem small_algebra (b1 b2 w s t x y k l T c : ℚ) (h1 : b1 ≠ 0) (h2 : b2 ≠ 0) :
    b1 * (w * (s * t)) * (k / b1 * (x * y * l / T / c)) = b2 * (w * (x * y)) * (l / b2 * (s * t * k / T / c)) := by
  have e1 : b1 * (w * (s * t)) * (k / b1 * (x * y * l / T / c)) = (b1 / b1) * (w * (s * t) * k * (x * y * l / T / c)) := by ring
  have e2 : b2 * (w * (x * y)) * (l / b2 * (s * t * k / T / c)) = (b2 / b2) * (w * (x * y) * l * (s * t * k / T / c)) := by ring
  rw [e1, e2, div_self h1, div_self h2]
  ring

theorem small_balance (hs : RecomSetting G pop target eps k) (hsm : SmallTolerance G pop target eps) (hQ : IsPlan G pop target eps k Q)
    (hX : IsPlan G pop target eps k X) : cutTreeWeightOf G Q * recomKernel G pop target eps (uniformLaw G) Q X =
      cutTreeWeightOf G X * recomKernel G pop target eps (uniformLaw G) X Q := by
  by_cases hne : Q = X
  · rw [hne]
  by_cases hex : Exchange Q X
  · obtain ⟨s, t, hst, e1⟩ := Finset.card_eq_two.1 hex.1
    obtain ⟨A, B, hAB, e2⟩ := Finset.card_eq_two.1 hex.2
    obtain ⟨hunion, hdis, hA0, hB0, -⟩ := two_parts hQ.1 hX.1 e1 e2 hAB
    obtain ⟨-, hdis', hs0, ht0, -⟩ := two_parts hX.1 hQ.1 e2 e1 hst
    have ms : s ∈ Q := (Finset.mem_sdiff.1 (by rw [e1]; simp : s ∈ Q \ X)).1
    have mt : t ∈ Q := (Finset.mem_sdiff.1 (by rw [e1]; simp : t ∈ Q \ X)).1
    have mA : A ∈ X := (Finset.mem_sdiff.1 (by rw [e2]; simp : A ∈ X \ Q)).1
    have mB : B ∈ X := (Finset.mem_sdiff.1 (by rw [e2]; simp : B ∈ X \ Q)).1
    rw [recomKernel_exchange hs hQ hX e1 e2 hst hAB, recomKernel_exchange hs hX hQ e2 e1 hAB hst, splitChance_uniform, splitChance_uniform,
      splitWeight_small hs.wf hdis (hX.sub mA) (hX.sub mB) hA0 hB0 (hX.2.2 A mA).2 (hX.2.2 B mB).2 hsm,
      splitWeight_small hs.wf hdis' (hQ.sub ms) (hQ.sub mt) hs0 ht0 (hQ.2.2 s ms).2 (hQ.2.2 t mt).2 hsm, hunion]
    have wa : treeWeight G Q = ((∏ Y ∈ Q ∩ X, numTrees G Y : ℕ) : ℚ) * (numTrees G s * numTrees G t) := by
      unfold treeWeight
      rw [← Finset.prod_inter_mul_prod_diff Q X, e1, Finset.prod_pair hst]
      push_cast
      ring
    have wb : treeWeight G X = ((∏ Y ∈ Q ∩ X, numTrees G Y : ℕ) : ℚ) * (numTrees G A * numTrees G B) := by
      unfold treeWeight
      rw [← Finset.prod_inter_mul_prod_diff X Q, e2, Finset.prod_pair hAB, Finset.inter_comm]
      push_cast
      ring
    unfold cutTreeWeightOf
    rw [wa, wb]
    have b1 := (between_card_pos hs hQ).ne'
    have b2 := (between_card_pos hs hX).ne'
    push_cast
    exact small_algebra _ _ _ _ _ _ _ _ _ _ _ b1 b2
  · have h1 : recomKernel G pop target eps (uniformLaw G) Q X = 0 := by
      by_contra h
      rcases recomKernel_step hs hQ hX h with h | h
      · exact hne h.symm
      · exact hex h
    have h2 : recomKernel G pop target eps (uniformLaw G) X Q = 0 := by
      by_contra h
      rcases recomKernel_step hs hX hQ h with h | h
      · exact hne h
      · exact hex h.symm
    rw [h1, h2, mul_zero, mul_zero]

theorem cutTreeWeightOf_pos (hs : RecomSetting G pop target eps k) (hQ : IsPlan G pop target eps k Q) : 0 < cutTreeWeightOf G Q :=
  mul_pos (between_card_pos hs hQ) (treeWeight_pos hs.wf hQ)

/-- **C105** (small tolerance) With uniform trees and a tolerance smaller than the population of every node, the stationary law is known: a plan has the weight "number of cut edges times product of the numbers
of spanning trees of the districts times the probability that a proposal made from it is allowed". -/
theorem C105_small (hs : RecomSetting G pop target eps k) (hsm : SmallTolerance G pop target eps) (hQ0 : IsPlan G pop target eps k Q0) (hW : W Q0 = true) :
    Invariant (recomClass G pop target eps k W Q0) (keptKernel G pop target eps k (uniformLaw G) W)
      (fun Q => cutTreeWeightOf G Q * allowedShare G pop target eps k (uniformLaw G) W Q /
        ∑ X ∈ recomClass G pop target eps k W Q0, cutTreeWeightOf G X * allowedShare G pop target eps k (uniformLaw G) W X) := by
  have hμ := treeChances_uniform hs.wf
  have hpos : ∀ Q ∈ recomClass G pop target eps k W Q0, 0 < cutTreeWeightOf G Q * allowedShare G pop target eps k (uniformLaw G) W Q := fun Q hQ =>
    mul_pos (cutTreeWeightOf_pos hs (mem_recomClass.1 hQ).1) (allowedShare_pos hs hμ (mem_recomClass.1 hQ).1 (recomClass_allowed hQ0 hW hQ))
  have hsum : 0 < ∑ X ∈ recomClass G pop target eps k W Q0, cutTreeWeightOf G X * allowedShare G pop target eps k (uniformLaw G) W X :=
    Finset.sum_pos hpos ⟨Q0, recomClass_self hQ0⟩
  refine Invariant.of_balance (keptKernel_isKernel hs hμ hQ0 hW) (fun Q hQ => div_nonneg (hpos Q hQ).le hsum.le) ?_ (fun Q hQ X hX => ?_)
  · rw [← Finset.sum_div]
    exact div_self hsum.ne'
  · have h := small_balance hs hsm (mem_recomClass.1 hQ).1 (mem_recomClass.1 hX).1
    have a1 := (allowedShare_pos hs hμ (mem_recomClass.1 hQ).1 (recomClass_allowed hQ0 hW hQ)).ne'
    have a2 := (allowedShare_pos hs hμ (mem_recomClass.1 hX).1 (recomClass_allowed hQ0 hW hX)).ne'
    unfold keptKernel
    have e1 : ∀ w a K S : ℚ, a ≠ 0 → w * a / S * (K / a) = w * K / S := by
      intro w a K S ha
      field_simp
    rw [e1 _ _ _ _ a1, e1 _ _ _ _ a2, h]

/-- **C105** (small tolerance, no further constraints) Without further constraints the weight is the number of cut edges times the product of the numbers of spanning trees of the districts. -/
theorem C105_small_all (hs : RecomSetting G pop target eps k) (hsm : SmallTolerance G pop target eps) (hQ0 : IsPlan G pop target eps k Q0) :
    Invariant (recomClass G pop target eps k (fun _ => true) Q0) (keptKernel G pop target eps k (uniformLaw G) (fun _ => true))
      (fun Q => cutTreeWeightOf G Q / ∑ X ∈ recomClass G pop target eps k (fun _ => true) Q0, cutTreeWeightOf G X) := by
  have hone : ∀ Q, IsPlan G pop target eps k Q → allowedShare G pop target eps k (uniformLaw G) (fun _ => true) Q = 1 := by
    intro Q hQ
    unfold allowedShare
    rw [Finset.filter_true_of_mem (fun _ _ => rfl)]
    exact sum_recomKernel hs (treeChances_uniform hs.wf) hQ
  have h := C105_small (W := fun _ => true) hs hsm hQ0 rfl
  have e : ∑ X ∈ recomClass G pop target eps k (fun _ => true) Q0, cutTreeWeightOf G X * allowedShare G pop target eps k (uniformLaw G) (fun _ => true) X =
      ∑ X ∈ recomClass G pop target eps k (fun _ => true) Q0, cutTreeWeightOf G X :=
    Finset.sum_congr rfl (fun X hX => by rw [hone X (mem_recomClass.1 hX).1, mul_one])
  rw [e] at h
  refine ⟨fun Q hQ => ?_, ?_, fun X hX => ?_⟩
  · have := h.nonneg Q hQ
    rwa [hone Q (mem_recomClass.1 hQ).1, mul_one] at this
  · rw [← h.sum]
    exact Finset.sum_congr rfl (fun Q hQ => by rw [hone Q (mem_recomClass.1 hQ).1, mul_one])
  · have := h.step X hX
    rw [hone X (mem_recomClass.1 hX).1, mul_one] at this
    rw [← this]
    exact Finset.sum_congr rfl (fun Q hQ => by rw [hone Q (mem_recomClass.1 hQ).1, mul_one])

end special

/-! ### Examples -/

theorem setting_two {G : Graph V} (hG : G.WF) (hcon : ConnectedOn G G.nodes) (h3 : 3 ≤ G.nodes.card) (pop : V → ℚ) (target eps : ℚ) : RecomSetting G pop target eps 2 := by
  refine ⟨hG, le_rfl, hcon, ?_⟩
  intro Q hQ s hs t ht hst _
  rw [mem_plans] at hQ
  have he : Q = {s, t} := by
    symm
    refine Finset.eq_of_subset_of_card_le ?_ (by rw [hQ.2.1, Finset.card_pair hst])
    intro Y hY
    rw [Finset.mem_insert, Finset.mem_singleton] at hY
    rcases hY with rfl | rfl <;> assumption
  rw [← biUnion_pair, ← he, partition_nodes hQ]
  exact h3

/-- no district of one node: any two districts have three nodes -/
theorem setting_of_nodes {G : Graph V} (hG : G.WF) (hcon : ConnectedOn G G.nodes) {k : ℕ} (hk : 2 ≤ k) {pop : V → ℚ} {target eps : ℚ}
    (h : ∀ v ∈ G.nodes, ¬ Near target eps (pop v)) : RecomSetting G pop target eps k := by
  refine ⟨hG, hk, hcon, ?_⟩
  intro Q hQ s hs t ht hst _
  rw [mem_plans] at hQ
  have two : ∀ X ∈ Q, 2 ≤ X.card := by
    intro X hX
    have h0 : 0 < X.card := Finset.card_pos.2 (hQ.1.nonempty X hX)
    by_contra hlt
    obtain ⟨v, rfl⟩ := Finset.card_eq_one.1 (by omega : X.card = 1)
    refine h v (hQ.sub hX (Finset.mem_singleton_self v)) ?_
    have := (hQ.2.2 _ hX).2
    unfold popOf at this
    rwa [Finset.sum_singleton] at this
  have hd : Disjoint s t := Finset.disjoint_left.2 (fun x h1 h2 => hst (hQ.1.disj s hs t ht x h1 h2))
  rw [Finset.card_union_of_disjoint hd]
  have := two s hs
  have := two t ht
  omega

theorem decides_nil {G : Graph V} {pop : V → ℚ} {target eps : ℚ} {k : ℕ} : DecidesPlan (P := P) G pop target eps k (fun _ => true) [] := fun _ _ _ => rfl

/-- a condition on the districts as a constraint function -/
def planConstraint (W : Finset (Finset V) → Bool) : Constraint Tape (PlanState V P) := ⟨fun x => pure (.bool (W x.plan.plan)), none⟩

theorem decides_one {G : Graph V} {pop : V → ℚ} {target eps : ℚ} {k : ℕ} (W : Finset (Finset V) → Bool) :
    DecidesPlan (P := P) G pop target eps k W [planConstraint W] := by
  intro x t _
  have e : (planConstraint (P := P) W).call x t = (.ok (.bool (W x.plan.plan)), t) := rfl
  cases hW : W x.plan.plan <;> rw [hW] at e <;> simp only [validator, e]

theorem kite_setting : RecomSetting kiteGraph kitePop 3 0 2 := setting_two kite_wf (kite_connected _ (by decide +kernel)) (by decide) _ _ _

theorem kite_isPlan : IsPlan kiteGraph kitePop 3 0 2 kiteA.plan ∧ IsPlan kiteGraph kitePop 3 0 2 kiteB.plan := by
  rw [kite_plans.1, kite_plans.2]
  refine ⟨⟨⟨by decide, by decide +kernel, by decide⟩, by decide, fun X hX => ⟨kite_connected X ?_, ?_⟩⟩,
    ⟨⟨by decide, by decide +kernel, by decide⟩, by decide, fun X hX => ⟨kite_connected X ?_, ?_⟩⟩⟩ <;> revert X <;> decide +kernel

theorem kite_only {Q : Finset (Finset (Fin 5))} (hQ : IsPlan kiteGraph kitePop 3 0 2 Q) : Q = kiteA.plan ∨ Q = kiteB.plan := by
  obtain ⟨s, t, hst, rfl⟩ := Finset.card_eq_two.1 hQ.2.1
  have hunion : s ∪ t = Finset.univ := by rw [← biUnion_pair]; exact partition_nodes hQ
  have hdis : Disjoint s t := Finset.disjoint_left.2 (fun x h1 h2 => hst (hQ.1.disj s (by simp) t (by simp) x h1 h2))
  have hdec : ∀ D : Finset (Fin 5), 0 ∈ D → |popOf kitePop D - 3| ≤ 0 → nxIsConnected (kiteGraph.subgraph D) = .ok true →
      D = {0, 4} ∨ D = {0, 1} := by decide +kernel
  have key : ∀ D ∈ ({s, t} : Finset (Finset (Fin 5))), 0 ∈ D → D = {0, 4} ∨ D = {0, 1} := by
    intro D hD h0
    obtain ⟨h1, h2⟩ := hQ.2.2 D hD
    refine hdec D h0 ?_ ?_
    · unfold Near at h2
      rwa [zero_mul] at h2
    · rw [nxIsConnected_true (kite_wf.subgraph D)]
      exact (connectedOn_subgraph (Finset.subset_univ D)).2 h1
  have hco : ∀ {D E : Finset (Fin 5)}, D ∪ E = Finset.univ → Disjoint D E → E = Finset.univ \ D := fun h1 h2 => by
    rw [← h1, Finset.union_sdiff_cancel_left h2]
  rw [kite_plans.1, kite_plans.2]
  have h0 : (0 : Fin 5) ∈ s ∪ t := by rw [hunion]; exact Finset.mem_univ _
  rcases Finset.mem_union.1 h0 with h | h
  · have e := hco hunion hdis
    rcases key s (by simp) h with rfl | rfl
    · left; rw [e]; decide
    · right; rw [e]; decide
  · have e := hco ((Finset.union_comm t s).trans hunion) hdis.symm
    rcases key t (by simp) h with rfl | rfl
    · left; rw [e]; decide
    · right; rw [e]; decide

theorem kite_class : recomClass kiteGraph kitePop 3 0 2 (fun _ => true) kiteA.plan = {kiteA.plan, kiteB.plan} := by
  rw [two_class kite_isPlan.1 rfl]
  ext Q
  rw [Finset.mem_filter, mem_plans, Finset.mem_insert, Finset.mem_singleton]
  constructor
  · exact fun h => kite_only h.1
  · rintro (rfl | rfl)
    · exact ⟨kite_isPlan.1, rfl⟩
    · exact ⟨kite_isPlan.2, rfl⟩

theorem kite_weights : cutTreeWeightOf kiteGraph kiteA.plan = 6 ∧ cutTreeWeightOf kiteGraph kiteB.plan = 3 := by
  obtain ⟨t1, t2, t3, t4⟩ := kite_trees
  rw [kite_plans.1, kite_plans.2]
  unfold cutTreeWeightOf treeWeight
  rw [Finset.prod_pair (by decide), Finset.prod_pair (by decide), t1, t2, t3, t4,
    (by decide +kernel : (between kiteGraph {{0, 4}, {1, 2, 3}}).card = 2), (by decide +kernel : (between kiteGraph {{0, 1}, {2, 3, 4}}).card = 3)]
  norm_num

/-- **C105** (an example) On a graph of five nodes with two plans, a long run of `recom` with uniform trees shows the one plan two thirds of the time. -/
theorem C105_kite (ε δ : ℚ) (hε : 0 < ε) (hδ : 0 < δ) :
    ∃ n0, ∀ n, n0 ≤ n → ∃ f0, ∀ f, f0 ≤ f → ∀ r, 0 < r → ∃ m0, ∀ m, m0 ≤ m → ∀ N, EvenTape kiteGraph N → ∀ fuel, 0 < fuel →
      ∀ b : Assignment (Fin 5) (Fin 2), b = kiteA ∨ b = kiteB → ∀ ch : Chain Tape (PlanState (Fin 5) (Fin 2)), ch.isValid = [] →
      ∀ body L, n + 1 < body → n * (f * recomDraws 1 m kiteGraph) ≤ L →
        1 - δ ≤ recomMean N L r m (uniformSpan N) fuel kiteGraph kitePop 3 0 b n ch f body
          (fun l => if |(l.map (fun Q => if Q = kiteA.plan then (1 : ℚ) else 0)).sum / l.length - 2 / 3| < ε then 1 else 0) := by
  have hinv := C105_small_all kite_setting kite_small kite_isPlan.1
  have hne : kiteA.plan ≠ kiteB.plan := by rw [kite_plans.1, kite_plans.2]; decide
  obtain ⟨n0, hn0⟩ := C105_converges (P := Fin 2) kite_setting (treeChances_uniform kite_wf) kite_isPlan.1 (W := fun _ => true) rfl _ hinv
    (fun Q => if Q = kiteA.plan then 1 else 0) ε δ hε hδ
  rw [kite_class, Finset.sum_pair hne, Finset.sum_pair hne, if_pos rfl, if_neg hne.symm, kite_weights.1, kite_weights.2] at hn0
  norm_num at hn0
  refine ⟨n0, fun n hn => ?_⟩
  obtain ⟨f0, hf0⟩ := hn0 n hn
  refine ⟨f0, fun f hf r hr => ?_⟩
  obtain ⟨m0, hm0⟩ := hf0 f hf r hr
  refine ⟨m0, fun m hm N hN fuel hfuel b hb ch hch body L hbody hL => ?_⟩
  have hbc : b.Coherent := by
    rcases hb with rfl | rfl
    · exact kite_setup.1.coherent
    · exact kite_setup.2.coherent
  have := hm0 m hm N 1 fuel (uniformSpan N) [] ⟨hN, hr, hfuel, uniform_treeLaw kite_wf hN.1 hN.2, decides_nil⟩ b hbc (by rcases hb with rfl | rfl <;> simp) ch hch body L hbody hL
  have := this
  linarith

/-- **C105** (not every plan) On a ring of six nodes with three districts of two nodes there is another plan, but only the one a run began with is within reach, so that a run of `recom` of any length,
whatever its spanning trees, shows no other (`C105_never_leaves`). -/
theorem C105_stuck : IsPlan hexGraph (fun _ => 1) 2 0 3 hexOther ∧ hexOther ≠ hexA.plan ∧
    recomClass hexGraph (fun _ => 1) 2 0 3 (fun _ => true) hexA.plan = {hexA.plan} := by
  refine ⟨hex_plan.2, by decide +kernel, ?_⟩
  rw [← hex_reachable]
  ext Q
  rw [mem_recomClass, mem_reachable]
  refine and_congr_right (fun _ => ?_)
  unfold AllowedReach ExReach
  simp

/-- the hypotheses of the theorems on runs hold for the graph of five nodes with a constraint that forbids one of the two plans, and without -/
example : RecomSetting kiteGraph kitePop 3 0 2 ∧ TreeChances kiteGraph (uniformLaw kiteGraph) ∧ SmallTolerance kiteGraph kitePop 3 0 ∧
    IsPlan kiteGraph kitePop 3 0 2 kiteA.plan ∧ kiteA.Coherent ∧ EvenTape kiteGraph (2 ^ 6).factorial ∧
    RecomRun (P := Fin 2) (2 ^ 6).factorial 1 1 1 2 kiteGraph kitePop 3 0 (uniformLaw kiteGraph) (fun _ => true) (uniformSpan (2 ^ 6).factorial) [] ∧
    RecomRun (P := Fin 2) (2 ^ 6).factorial 1 1 1 2 kiteGraph kitePop 3 0 (uniformLaw kiteGraph) (fun Q => decide (Q ≠ kiteB.plan)) (uniformSpan (2 ^ 6).factorial)
      [planConstraint (fun Q => decide (Q ≠ kiteB.plan))] ∧ decide (kiteA.plan ≠ kiteB.plan) = true := by
  have he : EvenTape kiteGraph (2 ^ 6).factorial := ⟨Nat.factorial_pos _, Nat.factorial_dvd_factorial (by decide)⟩
  have hne : kiteA.plan ≠ kiteB.plan := by rw [kite_plans.1, kite_plans.2]; decide
  exact ⟨kite_setting, treeChances_uniform kite_wf, kite_small, kite_isPlan.1, kite_setup.1.coherent, he,
    ⟨he, Nat.one_pos, Nat.one_pos, uniform_treeLaw kite_wf he.1 he.2, decides_nil⟩,
    ⟨he, Nat.one_pos, Nat.one_pos, uniform_treeLaw kite_wf he.1 he.2, decides_one _⟩, decide_eq_true hne⟩

/-- the hypotheses hold for the graph of seven nodes with three districts and the default trees, and there is more than one plan within reach -/
example : RecomSetting wheelGraph wheelPop 3 0 3 ∧ ∀ N, EvenTape wheelGraph N → 2 ≤ N → TreeChances wheelGraph (treeChance N wheelGraph) ∧
    RecomRun (P := Fin 3) N wheelGraph.edges.card 1 1 3 wheelGraph wheelPop 3 0 (treeChance N wheelGraph) (fun _ => true) (kruskalSpan N) [] ∧
    wheelA.Coherent ∧ IsPlan wheelGraph wheelPop 3 0 3 wheelA.plan ∧
    wheelB.plan ∈ recomClass wheelGraph wheelPop 3 0 3 (fun _ => true) wheelA.plan := by
  have hA : wheelA.plan = {{0, 5, 6}, {1, 3}, {2, 4}} := by decide +kernel
  have hB : wheelB.plan = {{0, 2, 5}, {1, 3}, {4, 6}} := by decide +kernel
  have pA : IsPlan wheelGraph wheelPop 3 0 3 wheelA.plan := by
    rw [hA]
    exact ⟨⟨by decide +kernel, by decide +kernel, by decide +kernel⟩, by decide +kernel, fun X hX => ⟨wheel_connected X (by revert X; decide +kernel), by revert X; decide +kernel⟩⟩
  have pB : IsPlan wheelGraph wheelPop 3 0 3 wheelB.plan := by
    rw [hB]
    exact ⟨⟨by decide +kernel, by decide +kernel, by decide +kernel⟩, by decide +kernel, fun X hX => ⟨wheel_connected X (by revert X; decide +kernel), by revert X; decide +kernel⟩⟩
  have hex : Exchange wheelA.plan wheelB.plan := by rw [hA, hB]; decide
  refine ⟨setting_of_nodes wheel_wf (wheel_connected _ (by decide +kernel)) (by norm_num) (by decide +kernel), fun N hN h2 => ?_⟩
  obtain ⟨h1, h3⟩ := C105_default wheel_wf N h2
  exact ⟨h1, ⟨hN, Nat.one_pos, Nat.one_pos, h3, decides_nil⟩, (wheel_setup (r := 1) hN.1 hN.2 Nat.one_pos wheelA (.inl rfl)).coherent, pA,
    recomClass_closed (recomClass_self pA) pB rfl (.inr hex)⟩

/-- the hypotheses of `C105_uniform` and `C105_default` hold for the graph of five nodes -/
example : kiteGraph.WF ∧ EvenTape kiteGraph (2 ^ 6).factorial ∧ 2 ≤ (2 ^ 6).factorial :=
  ⟨kite_wf, ⟨Nat.factorial_pos _, Nat.factorial_dvd_factorial (by decide)⟩, Nat.factorial_le (by norm_num : 2 ≤ 2 ^ 6)⟩

end GC

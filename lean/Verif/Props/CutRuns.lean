import Verif.Lemmas.RateRuns
import Verif.Props.BurstRuns

/-!
# Whole runs of chains of flips with `cut_edge_accept` (C114), and with `propose_random_flip` (C115)

`list(MarkovChain(proposal, constraints, cut_edge_accept, …))` for the two reversible proposals and for `propose_random_flip`: the law of the list of plans, the limit of ensemble
averages, and the limit of the law of the last plan.
-/

set_option linter.unusedSectionVars false
set_option autoImplicit false

namespace GC

variable {V P : Type} [LinearOrder V] [LinearOrder P]

/-- the probability that `cut_edge_accept` accepts the plan `m'` after the plan `m`; `cutPairs` has two elements for each cut edge -/
def cutAcceptChance (G : Graph V) (m m' : V → Option P) : ℚ := min 1 (((cutPairs G m).card : ℚ) / (cutPairs G m').card)

/-- **C114** (a plan without a parent) `cut_edge_accept` accepts it, whatever `random.random()` gives. -/
theorem C114_no_parent {N : ℕ} (hN : 0 < N) (G : Graph V) (a : Assignment V P) (t : Tape) : (cutAccept N G ⟨a, none⟩ t).1 = .ok true := by
  obtain ⟨u, t', h, -, h1⟩ := (uniRand_valid hN).random_ok t
  unfold cutAccept
  show (((uniRand N).random >>= fun u => (pure (decide (u < 1)) : M Tape Bool)) t).1 = _
  rw [M.bind_ok h]
  show (Except.ok (decide (u < 1)) : Py Bool) = _
  rw [decide_eq_true h1]

example : (cutAccept 7 walkPath ⟨walkA, none⟩ [6]).1 = .ok true := C114_no_parent (by decide) walkPath walkA [6]

/-- the random numbers allow the probabilities of `cut_edge_accept` and of the choice of a cut edge and one of its ends -/
def CutsDivide (N : ℕ) (G : Graph V) (S : Finset (V → Option P)) : Prop := ∀ m ∈ S, (cutPairs G m).card ∣ N

/-- As `FlipLaw`, with rates that depend on the new district as well. -/
structure PairLaw (N d : ℕ) (G : Graph V) (prop : PlanState V P → M Tape (PlanState V P)) (x : PlanState V P) (u : ℚ) (r : V × Option P → ℚ) : Prop where
  draws : Draws d (prop x)
  total : ∀ t, ∃ f ∈ moveSet G x.plan, (prop x t).1 = x.flip ⟨[f]⟩
  law : ∀ (g : Py (PlanState V P) → ℚ) (L : ℕ), d ≤ L → avg N L (fun t => g (prop x t).1) = ∑ f ∈ moveSet G x.plan, u * r (f.1, some f.2) * g (x.flip ⟨[f]⟩)

/-- the rate of the moves from `m` to `m'` -/
def pairRate [DecidableEq (V → Option P)] (G : Graph V) (W : (V → Option P) → Bool) (r : (V → Option P) → V × Option P → ℚ) (m m' : V → Option P) : ℚ :=
  ∑ x ∈ (allowedMoves G m W).filter (fun x => moved m x.1 x.2 = m'), r m x

/-- the sum of the rates of the allowed moves -/
def pairWeight (G : Graph V) (W : (V → Option P) → Bool) (r : (V → Option P) → V × Option P → ℚ) (m : V → Option P) : ℚ := ∑ x ∈ allowedMoves G m W, r m x

/-- the share of a plan when the plans are weighted with `g`, divided by their numbers of cut edges -/
def cutShare (G : Graph V) (S : Finset (V → Option P)) (g : (V → Option P) → ℚ) (m : V → Option P) : ℚ :=
  (g m / (cutPairs G m).card) / ∑ m' ∈ S, g m' / (cutPairs G m').card

/-! ### The acceptance function -/

section accept
variable {N : ℕ} {G : Graph V}

theorem random_accepts (hN : 0 < N) {p : ℚ} (hp1 : p ≤ 1) (hk : ∃ k : ℕ, p = k / N) : AcceptsWith N 1 (do let u ← (uniRand N).random; pure (decide (u < p))) p where
  ok := by
    intro t
    cases t <;> exact ⟨_, rfl⟩
  law := by
    intro L hL
    obtain ⟨L, rfl⟩ : ∃ k, L = k + 1 := ⟨L - 1, by omega⟩
    obtain ⟨k, hk⟩ := hk
    have := avg_random hN L p k hk hp1 true false (fun r : Py Bool => if r = .ok true then (1 : ℚ) else 0)
    rw [if_pos rfl, if_neg (by simp), mul_one, mul_zero, add_zero] at this
    refine Eq.trans (avg_congr N _ (fun t => ?_)) this
    have e : (do let u ← (uniRand N).random; pure (decide (u < p)) : M Tape Bool) = (uniRand N).random >>= fun u => (if u < p then pure true else pure false : M Tape Bool) := by
      refine congrArg _ (funext fun u => ?_)
      by_cases h : u < p
      · rw [if_pos h, decide_eq_true h]
      · rw [if_neg h, decide_eq_false h]
    rw [e]

theorem cutAcceptChance_pos {m m' : V → Option P} (h : (cutPairs G m).Nonempty) (h' : (cutPairs G m').Nonempty) : 0 < cutAcceptChance G m m' := by
  have h1 : (0 : ℚ) < (cutPairs G m).card := by exact_mod_cast Finset.card_pos.2 h
  have h2 : (0 : ℚ) < (cutPairs G m').card := by exact_mod_cast Finset.card_pos.2 h'
  exact lt_min one_pos (div_pos h1 h2)

theorem cutAccept_accepts (hG : G.WF) (hN : 0 < N) {y : PlanState V P} {b : Assignment V P} (hy : y.parent = some b) (hd : (cutPairs G y.plan.mapping.get?).card ∣ N)
    (hpos : (cutPairs G y.plan.mapping.get?).Nonempty) : AcceptsWith N 1 (cutAccept N G y) (cutAcceptChance G b.mapping.get? y.plan.mapping.get?) := by
  have hcard := Finset.card_pos.2 hpos
  have hc' := card_cutPairs hG y.plan.mapping
  have hc := card_cutPairs hG b.mapping
  have hne : ¬ (cutsOf G y.plan.mapping).card = 0 := by omega
  have hp : cutAcceptChance G b.mapping.get? y.plan.mapping.get? = min 1 (((cutsOf G b.mapping).card : ℚ) / (cutsOf G y.plan.mapping).card) := by
    unfold cutAcceptChance
    rw [hc, hc']
    push_cast
    rw [mul_div_mul_left _ _ two_ne_zero]
  have he : cutAccept N G y = (do let u ← (uniRand N).random; pure (decide (u < cutAcceptChance G b.mapping.get? y.plan.mapping.get?))) := by
    unfold cutAccept
    rw [hy, hp]
    simp only [if_neg hne]
    rfl
  rw [he]
  refine random_accepts hN (min_le_left _ _) ?_
  have hpos' : (0 : ℚ) < (cutPairs G y.plan.mapping.get?).card := by exact_mod_cast hcard
  obtain ⟨r, hr⟩ := hd
  have hr0 : (r : ℚ) ≠ 0 := by
    intro h0
    have : r = 0 := by exact_mod_cast h0
    rw [this, mul_zero] at hr
    omega
  unfold cutAcceptChance
  by_cases hle : (cutPairs G y.plan.mapping.get?).card ≤ (cutPairs G b.mapping.get?).card
  · refine ⟨N, ?_⟩
    rw [min_eq_left, div_self (by exact_mod_cast hN.ne')]
    rw [le_div_iff₀ hpos', one_mul]
    exact_mod_cast hle
  · refine ⟨(cutPairs G b.mapping.get?).card * r, ?_⟩
    rw [min_eq_right, hr]
    · push_cast
      rw [mul_div_mul_right _ _ hr0]
    · rw [div_le_iff₀ hpos', one_mul]
      exact_mod_cast (not_le.1 hle).le

end accept

/-! ### One round -/

section round
variable {G : Graph V} {W : (V → Option P) → Bool} {a : Assignment V P} {S : Finset (V → Option P)} {N d : ℕ}
  {prop : PlanState V P → M Tape (PlanState V P)} {x0 : PlanState V P} {steps : ℤ} {cs : List (Constraint Tape (PlanState V P))} [DecidableEq (V → Option P)]
  {u : (V → Option P) → ℚ} {r : (V → Option P) → V × Option P → ℚ}

theorem FlipLaw.toPair {x : PlanState V P} {u : ℚ} {r : V → ℚ} (h : FlipLaw N d G prop x u r) : PairLaw N d G prop x u (fun f => r f.1) := ⟨h.draws, h.total, h.law⟩

/-- a round with `always_accept` -/
theorem tryLaw_pairs (hs : FlipSetting G W a S) (hcs : Decides W cs) (hN : 0 < N)
    (hlaw : ∀ x : PlanState V P, InClass G S x → PairLaw N d G prop x (u x.plan.mapping.get?) (r x.plan.mapping.get?)) :
    TryLaw N d (flipChain prop alwaysAccept x0 steps) cs (InClass G S) (fun x => x.plan.mapping.get?) S
      (fun m m' => u m * pairRate G W r m m') (fun m => 1 - u m * pairWeight G W r m) where
  erase := fun _ _ => rfl
  draws := fun x hx => draws_oneTry hcs (hlaw x hx).draws
  noStop := by
    intro x hx t
    obtain ⟨f, hf, he⟩ := (hlaw x hx).total t
    obtain ⟨b, hb, hm, hc, hcov⟩ := plan_flip hs.wf hx.1 hx.2.1 hf
    rw [oneTry_sieve hcs, he, hb]
    simp [sieve]
  good := by
    intro x hx t y hy
    obtain ⟨f, hf, he⟩ := (hlaw x hx).total t
    obtain ⟨b, hb, hm, hc, hcov⟩ := plan_flip hs.wf hx.1 hx.2.1 hf
    rw [oneTry_sieve hcs, he, hb] at hy
    simp only [sieve, Except.ok.injEq] at hy
    split_ifs at hy with hW
    cases hy
    refine ⟨hc, hcov, hs.closed hx.2.2 ?_⟩
    rw [hm] at hW ⊢
    exact moved_allowed (x := (f.1, some f.2)) ((mem_moves_iff hs.wf hx.2.1).2 ⟨hf, hW⟩)
  mem := fun x hx => hx.2.2
  law := by
    intro x hx m' _
    have e : ∀ t, triedTo (fun x : PlanState V P => x.plan.mapping.get?) m' (oneTry (flipChain prop alwaysAccept x0 steps) cs x t).1 =
        (fun q => triedTo (fun x : PlanState V P => x.plan.mapping.get?) m' (sieve W q)) (prop x t).1 := fun t => by rw [oneTry_sieve hcs]
    rw [avg_congr N d e, (hlaw x hx).law (fun q => triedTo (fun x : PlanState V P => x.plan.mapping.get?) m' (sieve W q)) d le_rfl]
    unfold pairRate
    rw [Finset.sum_filter, sum_moves hs.wf hx.2.1, Finset.sum_filter, Finset.mul_sum]
    refine Finset.sum_congr rfl (fun f hf => ?_)
    obtain ⟨b, hb, hm, -, -⟩ := plan_flip hs.wf hx.1 hx.2.1 hf
    rw [hb]
    simp only [sieve, hm]
    by_cases hW : W (moved x.plan.mapping.get? f.1 (some f.2)) = true
    · rw [if_pos hW, if_pos hW]
      simp only [triedTo, hm]
      by_cases hmm : moved x.plan.mapping.get? f.1 (some f.2) = m'
      · rw [if_pos hmm, if_pos hmm, mul_one]
      · rw [if_neg hmm, if_neg hmm, mul_zero, mul_zero]
    · rw [if_neg hW, if_neg hW]
      simp only [triedTo, mul_zero]
  refuse := by
    intro x hx
    have e : ∀ t, wasRefused (oneTry (flipChain prop alwaysAccept x0 steps) cs x t).1 = (fun q => wasRefused (sieve W q)) (prop x t).1 :=
      fun t => by rw [oneTry_sieve hcs]
    rw [avg_congr N d e, (hlaw x hx).law (fun q => wasRefused (sieve W q)) d le_rfl]
    have h1 := (hlaw x hx).law (fun _ => 1) d le_rfl
    rw [avg_const hN] at h1
    rw [h1]
    unfold pairWeight
    rw [sum_moves hs.wf hx.2.1, Finset.sum_filter, Finset.mul_sum, ← Finset.sum_sub_distrib]
    refine Finset.sum_congr rfl (fun f hf => ?_)
    obtain ⟨b, hb, hm, -, -⟩ := plan_flip hs.wf hx.1 hx.2.1 hf
    rw [hb]
    simp only [sieve, hm]
    by_cases hW : W (moved x.plan.mapping.get? f.1 (some f.2)) = true
    · rw [if_pos hW, if_pos hW]
      simp only [wasRefused]
      ring
    · rw [if_neg hW, if_neg hW]
      simp only [wasRefused]
      ring

theorem pairWeight_eq (hs : FlipSetting G W a S) {m : V → Option P} (hm : m ∈ S) : rateSum S (pairRate G W r) m = pairWeight G W r m := by
  unfold rateSum pairRate pairWeight
  exact Finset.sum_fiberwise_of_maps_to (fun x hx => hs.closed hm (moved_allowed hx)) (fun x => r m x)

/-- the rates of the allowed moves are positive -/
def PosRates (G : Graph V) (W : (V → Option P) → Bool) (S : Finset (V → Option P)) (r : (V → Option P) → V × Option P → ℚ) : Prop :=
  ∀ m ∈ S, ∀ x ∈ allowedMoves G m W, 0 < r m x

theorem pairRate_nonneg (hr : PosRates G W S r) {m : V → Option P} (hm : m ∈ S) (m' : V → Option P) : 0 ≤ pairRate G W r m m' :=
  Finset.sum_nonneg (fun x hx => (hr m hm x (Finset.mem_filter.1 hx).1).le)

/-- the rate of a move -/
theorem pairRate_move (hG : G.WF) {m : V → Option P} {v u : V} (h : (v, u) ∈ allowedPairs G m W) : pairRate G W r m (moved m v (m u)) = r m (v, m u) := by
  unfold pairRate
  have : (allowedMoves G m W).filter (fun x => moved m x.1 x.2 = moved m v (m u)) = {(v, m u)} := by
    ext ⟨v', o⟩
    rw [Finset.mem_filter, Finset.mem_singleton]
    constructor
    · rintro ⟨h1, h2⟩
      obtain ⟨⟨v'', u''⟩, hy, he⟩ := Finset.mem_image.1 h1
      cases he
      obtain ⟨e1, e2⟩ := moved_inj ((mem_cutPairs hG).1 (Finset.mem_filter.1 hy).1).2 ((mem_cutPairs hG).1 (Finset.mem_filter.1 h).1).2 h2
      exact Prod.ext e1 e2
    · intro he
      cases he
      exact ⟨Finset.mem_image_of_mem (fun x => (x.1, m x.2)) h, rfl⟩
  rw [this, Finset.sum_singleton]

theorem pairRate_none {m m' : V → Option P} (h : ¬ FlipMove G W m m') : pairRate G W r m m' = 0 := by
  unfold pairRate
  refine Finset.sum_eq_zero (fun x hx => ?_)
  obtain ⟨h1, h2⟩ := Finset.mem_filter.1 hx
  exact absurd (h2 ▸ moved_allowed h1) h

theorem pairRate_pos (hG : G.WF) (hr : PosRates G W S r) {m m' : V → Option P} (hm : m ∈ S) (h : FlipMove G W m m') : 0 < pairRate G W r m m' := by
  obtain ⟨⟨v, u⟩, hx, rfl⟩ := h
  rw [pairRate_move hG hx]
  exact hr m hm _ (Finset.mem_image_of_mem (fun x => (x.1, m x.2)) hx)

theorem cutPairs_nonempty (hs : FlipSetting G W a S) {m : V → Option P} (hm : m ∈ S) : (cutPairs G m).Nonempty := by
  obtain ⟨x, hx⟩ := hs.has_move hm
  exact ⟨x, (Finset.mem_filter.1 hx).1⟩

theorem cutAcceptChance_isChance (hs : FlipSetting G W a S) : IsChance S (cutAcceptChance G) :=
  fun _ hm _ hm' => ⟨(cutAcceptChance_pos (cutPairs_nonempty hs hm) (cutPairs_nonempty hs hm')).le, min_le_left _ _⟩

/-- a law of the proposal gives a chain of this kind: `w` is 1 with `always_accept`, and `cutAcceptChance` with `cut_edge_accept` -/
theorem pairs_walk (hs : FlipSetting G W a S) (hr : PosRates G W S r) (hN : 0 < N) (hu : ∀ m ∈ S, 0 < u m)
    (hlaw : ∀ x : PlanState V P, InClass G S x → PairLaw N d G prop x (u x.plan.mapping.get?) (r x.plan.mapping.get?)) {w : (V → Option P) → (V → Option P) → ℚ} (hw : IsChance S w) :
    RateWalk S u (pairRate G W r) w where
  nonneg := fun _ hm m' _ => pairRate_nonneg hr hm m'
  sum := by
    intro m hm
    rw [pairWeight_eq hs hm]
    obtain ⟨x, hx⟩ := hs.has_move hm
    exact Finset.sum_pos (hr m hm) ⟨_, Finset.mem_image_of_mem _ hx⟩
  chance := hw
  pos := hu
  le := by
    intro m hm
    obtain ⟨b, rfl, hb⟩ := hs.represent hm
    have hT := (tryLaw_pairs (x0 := ⟨b, none⟩) (steps := 0) hs (chainAt_decides a W) hN hlaw).refuse _ hb
    dsimp only at hT
    rw [pairWeight_eq hs hm]
    have : 0 ≤ avg N d (fun t => wasRefused (oneTry (flipChain prop alwaysAccept ⟨b, none⟩ 0) (chainAt a W).isValid ⟨b, none⟩ t).1) := by
      unfold avg
      exact div_nonneg (Finset.sum_nonneg (fun t _ => wasRefused_nonneg _)) (by positivity)
    rw [hT] at this
    linarith

theorem always_tilt (A : (V → Option P) → (V → Option P) → ℚ) : tiltRate S A (fun _ _ => 1) = A := by
  funext m m'
  unfold tiltRate
  simp

theorem always_rateLaw (hs : FlipSetting G W a S) (hcs : Decides W cs) (hN : 0 < N)
    (hlaw : ∀ x : PlanState V P, InClass G S x → PairLaw N d G prop x (u x.plan.mapping.get?) (r x.plan.mapping.get?)) :
    RateLaw N d (flipChain prop alwaysAccept x0 steps) cs (InClass G S) (fun x => x.plan.mapping.get?) S u (pairRate G W r) (fun _ _ => 1) := by
  have h := tryLaw_pairs (x0 := x0) (steps := steps) hs hcs hN hlaw
  unfold RateLaw
  rw [always_tilt]
  refine ⟨h.erase, h.draws, h.good, h.noStop, h.mem, h.law, fun x hx => ?_⟩
  rw [h.refuse x hx, pairWeight_eq hs hx.2.2]

theorem cut_rateLaw (hs : FlipSetting G W a S) (hcs : Decides W cs) (hN : 0 < N) (hd : CutsDivide N G S)
    (hlaw : ∀ x : PlanState V P, InClass G S x → PairLaw N d G prop x (u x.plan.mapping.get?) (r x.plan.mapping.get?)) :
    RateLaw N (d + 1) (flipChain prop (cutAccept N G) x0 steps) cs (InClass G S) (fun x => x.plan.mapping.get?) S u (pairRate G W r) (cutAcceptChance G) := by
  have h := always_rateLaw (x0 := x0) (steps := steps) hs hcs hN hlaw
  unfold RateLaw at h ⊢
  rw [always_tilt] at h
  refine h.tilt (c' := flipChain prop (cutAccept N G) x0 steps) hN (fun _ _ => rfl) rfl (fun _ _ => rfl) (fun y => draws_cutAccept N G y) ?_
  intro x hx t y hy
  have hgood := h.good x hx t y hy
  have hprop : (prop x t).1 = .ok y := oneTry_proposed (c := flipChain prop alwaysAccept x0 steps) (fun _ _ => rfl) hy
  have hparent : y.parent = some x.plan := by
    obtain ⟨f, hf, he⟩ := (hlaw x hx).total t
    obtain ⟨b, hb, -⟩ := plan_flip hs.wf hx.1 hx.2.1 hf
    rw [hprop, hb] at he
    cases he
    rfl
  exact cutAccept_accepts hs.wf hN hparent (hd _ hgood.2.2) (cutPairs_nonempty hs hgood.2.2)

/-- the chain gets everywhere -/
theorem pairs_connects (hs : FlipSetting G W a S) (hr : PosRates G W S r) {w : (V → Option P) → (V → Option P) → ℚ} (hwalk : RateWalk S u (pairRate G W r) w)
    (hw : ∀ m ∈ S, ∀ m' ∈ S, 0 < w m m') : Connects S (walkKernel S (pairRate G W r) w) := by
  refine walk_connects hwalk hw ?_
  intro m hm m' hm'
  have h := hs.reach hm hm'
  clear hm'
  induction h with
  | refl => exact .refl
  | @tail b c h1 h ih =>
    have hb : b ∈ S := (hs.mem b).2 (((hs.mem m).1 hm).trans h1)
    exact ih.tail ⟨hb, hs.closed hb h, pairRate_pos hs.wf hr hb h⟩

end round

/-! ### The limit -/

section limit
variable {G : Graph V} {W : (V → Option P) → Bool} {a : Assignment V P} {S : Finset (V → Option P)} [DecidableEq (V → Option P)]
  {u : (V → Option P) → ℚ} {r : (V → Option P) → V × Option P → ℚ}

/-- a move and the move back have the same rate -/
def SymmRates (G : Graph V) (W : (V → Option P) → Bool) (S : Finset (V → Option P)) (r : (V → Option P) → V × Option P → ℚ) : Prop :=
  ∀ m ∈ S, ∀ v u, (v, u) ∈ allowedPairs G m W → r m (v, m u) = r (moved m v (m u)) (v, m v)

theorem pairRate_symm (hs : FlipSetting G W a S) (hr : SymmRates G W S r) {m m' : V → Option P} (hm : m ∈ S) (hm' : m' ∈ S) :
    pairRate G W r m m' = pairRate G W r m' m := by
  by_cases h : FlipMove G W m m'
  · obtain ⟨⟨v, u⟩, hx, rfl⟩ := h
    obtain ⟨w, hwv, hw, hmw, h1, h2⟩ := hs.undo hm hx
    have e := pairRate_move (r := r) hs.wf h1
    have e2 : moved m v (m u) w = m v := by
      unfold moved
      rw [if_neg hwv]
      exact hmw
    dsimp only at e ⊢
    rw [pairRate_move hs.wf hx, hr m hm v u hx]
    rw [e2] at e
    rw [← e]
    congr 1
    rw [← e2]
    exact h2
  · rw [pairRate_none h, pairRate_none (fun h' => h (hs.symm hm' h'))]

theorem pairs_invariant (hs : FlipSetting G W a S) (hr : SymmRates G W S r) (hwalk : RateWalk S u (pairRate G W r) (cutAcceptChance G)) :
    Invariant S (walkKernel S (pairRate G W r) (cutAcceptChance G)) (cutShare G S (pairWeight G W r)) := by
  have h := balance_invariant hwalk ⟨_, hs.initial⟩ (fun m hm m' hm' => pairRate_symm hs hr hm hm') (g := fun m => ((cutPairs G m).card : ℚ))
    (fun m hm => by exact_mod_cast Finset.card_pos.2 (cutPairs_nonempty hs hm)) (fun _ _ _ _ => rfl)
  have e : ∀ m ∈ S, (rateSum S (pairRate G W r) m / (cutPairs G m).card) / ∑ y ∈ S, rateSum S (pairRate G W r) y / (cutPairs G y).card = cutShare G S (pairWeight G W r) m := by
    intro m hm
    unfold cutShare
    rw [pairWeight_eq hs hm, Finset.sum_congr rfl (fun y hy => by rw [pairWeight_eq hs hy])]
  refine ⟨fun m hm => ?_, ?_, fun m hm => ?_⟩
  · rw [← e m hm]
    exact h.nonneg m hm
  · rw [← h.sum]
    exact Finset.sum_congr rfl (fun m hm => (e m hm).symm)
  · rw [← e m hm, ← h.step m hm]
    exact Finset.sum_congr rfl (fun y hy => by rw [e y hy])

end limit

/-! ### The three proposals -/

section proposals
variable {G : Graph V} {W : (V → Option P) → Bool} {a : Assignment V P} {S : Finset (V → Option P)} {N : ℕ}

/-- the rates of `propose_random_flip`: the number of neighbours of the node in its new district -/
def nbrRate (G : Graph V) (m : V → Option P) (x : V × Option P) : ℚ := (nbrsIn G m x.1 x.2).card

theorem nbr_posRates (hs : FlipSetting G W a S) : PosRates G W S (nbrRate G) := by
  intro m _ x hx
  obtain ⟨⟨v, u⟩, hvu, rfl⟩ := Finset.mem_image.1 hx
  have hadj := ((mem_cutPairs hs.wf).1 (Finset.mem_filter.1 hvu).1).1
  have : 0 < (nbrsIn G m v (m u)).card := Finset.card_pos.2 ⟨u, Finset.mem_filter.2 ⟨(hs.wf.mem_of_adj hadj).2, hadj, rfl⟩⟩
  show (0 : ℚ) < (nbrsIn G m v (m u)).card
  exact_mod_cast this

theorem nbr_weight (hG : G.WF) (m : V → Option P) : pairWeight G W (nbrRate G) m = (allowedPairs G m W).card := by
  unfold pairWeight allowedMoves
  rw [Finset.card_eq_sum_card_image (fun x : V × V => (x.1, m x.2))]
  push_cast
  refine Finset.sum_congr rfl (fun x hx => ?_)
  obtain ⟨⟨v, u⟩, hvu, rfl⟩ := Finset.mem_image.1 hx
  show ((nbrsIn G m v (m u)).card : ℚ) = _
  obtain ⟨h1, hW⟩ := Finset.mem_filter.1 hvu
  obtain ⟨hadj, hne⟩ := (mem_cutPairs hG).1 h1
  refine congrArg _ (Finset.card_bij (fun w _ => (v, w)) ?_ ?_ ?_)
  · intro w hw
    obtain ⟨-, hadj', hmw⟩ := Finset.mem_filter.1 hw
    refine Finset.mem_filter.2 ⟨Finset.mem_filter.2 ⟨(mem_cutPairs hG).2 ⟨hadj', ?_⟩, ?_⟩, ?_⟩
    · dsimp only at hne ⊢
      rw [hmw]
      exact hne
    · dsimp only at hW ⊢
      rw [hmw]
      exact hW
    · dsimp only
      rw [hmw]
  · intro w _ w' _ h
    exact (Prod.mk.inj h).2
  · rintro ⟨v', w⟩ hw
    obtain ⟨h2, h3⟩ := Finset.mem_filter.1 hw
    obtain ⟨h3, h4⟩ := Prod.mk.inj h3
    dsimp only at h3 h4
    subst h3
    have hadj' := ((mem_cutPairs hG).1 (Finset.mem_filter.1 h2).1).1
    exact ⟨w, Finset.mem_filter.2 ⟨(hG.mem_of_adj hadj').2, hadj', h4⟩, rfl⟩

theorem random_pos [DecidableEq (V → Option P)] (hs : FlipSetting G W a S) : ∀ m ∈ S, (0 : ℚ) < 1 / (cutPairs G m).card := by
  intro m hm
  have : (0 : ℚ) < (cutPairs G m).card := by exact_mod_cast Finset.card_pos.2 (cutPairs_nonempty hs hm)
  positivity

theorem random_pairLaw [DecidableEq (V → Option P)] (hs : FlipSetting G W a S) (hN : 0 < N) (hd : CutsDivide N G S) {x : PlanState V P} (hx : InClass G S x) :
    PairLaw N 2 G (randomMove N G) x (1 / (cutPairs G x.plan.mapping.get?).card) (nbrRate G x.plan.mapping.get?) := by
  obtain ⟨⟨v0, u0⟩, hvu⟩ := hs.has_move hx.2.2
  have hc := card_cutPairs hs.wf x.plan.mapping
  have hd' := hd _ hx.2.2
  have hpos := Finset.card_pos.2 (cutPairs_nonempty hs hx.2.2)
  have h2 : 2 ∣ N := (Dvd.intro _ hc.symm).trans hd'
  have hcut : (cutsOf G x.plan.mapping).card ∣ N := (Dvd.intro_left _ hc.symm).trans hd'
  have hne : (cutsOf G x.plan.mapping).Nonempty := Finset.card_pos.1 (by omega)
  obtain ⟨l, hp, hlen, hl⟩ := random_picks hN hs.wf x hx.2.1 hne hcut h2
  have hmoves : ∀ f ∈ moveSet G x.plan, l.count f = (nbrsIn G x.plan.mapping.get? f.1 (some f.2)).card := by
    rintro ⟨v, q⟩ hf
    obtain ⟨⟨p, hp, hpq⟩, -⟩ := (mem_moveSet hs.wf hx.2.1).1 hf
    refine list_count hs.wf hl ?_
    dsimp only at hp hpq
    rw [hp]
    exact fun h => hpq (Option.some.inj h)
  have hend : ∀ v u q, (v, u) ∈ cutPairs G x.plan.mapping.get? → x.plan.mapping.get? u = some q → (v, q) ∈ moveSet G x.plan := by
    intro v u q hvu hq
    obtain ⟨hadj, hnee⟩ := (mem_cutPairs hs.wf).1 hvu
    obtain ⟨p, hp⟩ := covers_adj hs.wf hx.2.1 _ _ hadj
    refine (mem_moveSet hs.wf hx.2.1).2 ⟨⟨p, hp, ?_⟩, u, hadj, hq⟩
    rintro rfl
    exact hnee (hp.trans hq.symm)
  have hsub : l.toFinset ⊆ moveSet G x.plan := by
    rintro ⟨v, q⟩ hf
    rw [List.mem_toFinset] at hf
    have hf' : (v, some q) ∈ l.map (fun f => (f.1, some f.2)) := List.mem_map.2 ⟨_, hf, rfl⟩
    rw [hl] at hf'
    obtain ⟨⟨v', u'⟩, hy, he⟩ := List.mem_map.1 hf'
    obtain ⟨rfl, he⟩ := Prod.mk.inj he
    exact hend v' u' q ((mem_orderedCuts hs.wf).1 hy) (Prod.mk.inj he).2
  refine ⟨hp.draws, fun t => ?_, fun g L hL => ?_⟩
  · have hiter : iterE (cutsOf G x.plan.mapping) ≠ [] := by
      rw [Ne, ← List.length_eq_zero_iff, length_iterE]
      exact (Finset.card_pos.2 hne).ne'
    obtain ⟨e, he, t', hce⟩ := choice_some N hiter t
    obtain ⟨i, -, t'', hci⟩ := choice_some N (l := [(0 : ℕ), 1]) (by simp) t'
    have hy : (if i = 0 then e else (e.2, e.1)) ∈ cutPairs G x.plan.mapping.get? := by
      refine (mem_orderedCuts hs.wf).1 (List.mem_flatMap.2 ⟨e, he, ?_⟩)
      split_ifs <;> simp
    have hch : chooseEnd (uniRand N) e t' = (.ok (if i = 0 then e else (e.2, e.1)), t'') := by
      unfold chooseEnd
      rw [M.bind_ok hci]
      rfl
    generalize (if i = 0 then e else (e.2, e.1)) = y at hy hch
    obtain ⟨q, hq⟩ := covers_adj hs.wf hx.2.1 _ _ ((mem_cutPairs hs.wf).1 hy).1.symm
    refine ⟨(y.1, q), hend y.1 y.2 q hy hq, ?_⟩
    have hr : randomFlip (uniRand N) x.plan (cutsOf G x.plan.mapping) t = (.ok (some ⟨[(y.1, q)]⟩), t'') := by
      unfold randomFlip
      rw [if_neg hne.ne_empty, M.bind_ok hce, M.bind_ok hch, Dict.get_eq_ok_iff.2 hq, lift_ok_bind]
      rfl
    unfold randomMove
    rw [M.bind_ok hr]
    rfl
  · have hsum : (l.map (fun f => g (x.flip ⟨[f]⟩))).sum = ∑ f ∈ l.toFinset, (l.count f : ℚ) * g (x.flip ⟨[f]⟩) := by
      rw [Finset.sum_list_map_count]
      refine Finset.sum_congr rfl (fun f _ => ?_)
      rw [nsmul_eq_mul]
      congr 3
      exact lawful_beq_subsingleton _ _
    rw [hp.law g L hL, hsum, hlen, ← hc, Finset.sum_subset hsub (fun f _ hf => by rw [List.count_eq_zero.2 (fun h => hf (List.mem_toFinset.2 h))]; simp), Finset.sum_div]
    refine Finset.sum_congr rfl (fun f hf => ?_)
    rw [hmoves f hf]
    unfold nbrRate
    ring

end proposals

/-! ### The runs -/

section c114
variable (G : Graph V) (W : (V → Option P) → Bool) (a : Assignment V P) (S : Finset (V → Option P)) [DecidableEq (V → Option P)]

theorem slow_posRates {G : Graph V} {W : (V → Option P) → Bool} {S : Finset (V → Option P)} : PosRates G W S (fun _ _ => 1) := fun _ _ _ _ => one_pos

theorem slow_symmRates {G : Graph V} {W : (V → Option P) → Bool} {S : Finset (V → Option P)} : SymmRates G W S (fun _ _ => 1) := fun _ _ _ _ _ => rfl

theorem bi_posRates {G : Graph V} {W : (V → Option P) → Bool} {a : Assignment V P} {S : Finset (V → Option P)} (hs : FlipSetting G W a S) : PosRates G W S (fun m x => biRate G m x.1) := by
  intro m hm x hx
  obtain ⟨⟨v, u⟩, hvu, rfl⟩ := Finset.mem_image.1 hx
  exact (bi_rates hs).pos m hm v u hvu

theorem bi_symmRates {G : Graph V} {W : (V → Option P) → Bool} {a : Assignment V P} {S : Finset (V → Option P)} (hs : FlipSetting G W a S) : SymmRates G W S (fun m x => biRate G m x.1) := by
  intro m hm v u hvu
  obtain ⟨w, hwv, hw, hmw⟩ := hs.back m hm _ hvu
  exact ((bi_rates hs).symm m hm v u w hvu hwv hw hmw).symm

/-- the probability of an allowed move to `m'` in the run: how likely the proposal is to make it, times the probability that it is accepted -/
theorem walkKernel_move {G : Graph V} {W : (V → Option P) → Bool} {a : Assignment V P} {S : Finset (V → Option P)} {r : (V → Option P) → V × Option P → ℚ}
    {w : (V → Option P) → (V → Option P) → ℚ} (hs : FlipSetting G W a S) {m : V → Option P} (hm : m ∈ S) {v u : V} (h : (v, u) ∈ allowedPairs G m W) :
    walkKernel S (pairRate G W r) w m (moved m v (m u)) = r m (v, m u) / pairWeight G W r m * w m (moved m v (m u)) := by
  have hne : moved m v (m u) ≠ m := by
    intro he
    have := congrFun he v
    unfold moved at this
    rw [if_pos rfl] at this
    exact ((mem_cutPairs hs.wf).1 (Finset.mem_filter.1 h).1).2 this.symm
  unfold walkKernel tiltRate rateKernel
  rw [if_neg hne, add_zero, pairRate_move hs.wf h, pairWeight_eq hs hm]

/-- and of another plan -/
theorem walkKernel_none {G : Graph V} {W : (V → Option P) → Bool} {S : Finset (V → Option P)} {r : (V → Option P) → V × Option P → ℚ}
    {w : (V → Option P) → (V → Option P) → ℚ} {m m' : V → Option P} (hne : m' ≠ m) (h : ¬ FlipMove G W m m') :
    walkKernel S (pairRate G W r) w m m' = 0 := by
  unfold walkKernel tiltRate rateKernel
  rw [if_neg hne, add_zero, pairRate_none h, zero_div, zero_mul]

theorem slow_pairWeight {G : Graph V} {W : (V → Option P) → Bool} (m : V → Option P) : pairWeight G W (fun _ _ => 1) m = (allowedMoves G m W).card := slow_weight m

theorem bi_pairWeight {G : Graph V} {W : (V → Option P) → Bool} (m : V → Option P) :
    pairWeight G W (fun m x => biRate G m x.1) m = ∑ x ∈ allowedMoves G m W, 1 / ((otherParts G m x.1).card : ℚ) := rfl

theorem cutShare_mean {G : Graph V} {S : Finset (V → Option P)} (g score : (V → Option P) → ℚ) :
    ∑ m ∈ S, cutShare G S g m * score m = (∑ m ∈ S, g m / (cutPairs G m).card * score m) / ∑ m ∈ S, g m / (cutPairs G m).card := by
  unfold cutShare
  rw [Finset.sum_div]
  exact Finset.sum_congr rfl (fun m _ => by ring)

theorem cutAcceptChance_lt {G : Graph V} {m m' : V → Option P} (h : (cutPairs G m').Nonempty) (hlt : (cutPairs G m).card < (cutPairs G m').card) : cutAcceptChance G m m' < 1 := by
  refine (min_le_right _ _).trans_lt ?_
  have : (0 : ℚ) < (cutPairs G m').card := by exact_mod_cast Finset.card_pos.2 h
  rw [div_lt_one this]
  exact_mod_cast hlt

theorem slow_cut_walk (hs : FlipSetting G W a S) :
    RateWalk S (fun m => (1 : ℚ) / (allowedMoves G m (fun _ => true)).card) (pairRate G W (fun _ _ => 1)) (cutAcceptChance G) := by
  obtain ⟨N, hN, hd⟩ := exists_slow_randomness hs
  exact pairs_walk (prop := slowMove N G) hs slow_posRates hN (slow_pos hs) (fun x hx => (slow_flipLaw hs hN hd hx).toPair) (cutAcceptChance_isChance hs)

theorem bi_cut_walk (hs : FlipSetting G W a S) (han : ∀ m ∈ S, Anchored G m) :
    RateWalk S (fun m => (1 : ℚ) / (boundaryNodes G m).card) (pairRate G W (fun m x => biRate G m x.1)) (cutAcceptChance G) := by
  obtain ⟨N, hN, hd⟩ := exists_bi_randomness hs
  exact pairs_walk (prop := biMove N G) hs (bi_posRates hs) hN (bi_pos hs) (fun x hx => (bi_flipLaw hs hN hd han hx).toPair) (cutAcceptChance_isChance hs)

/-- **C114** (the run, `slow_reversible_propose` with `cut_edge_accept`) The probability that a run is finished and that its plans are the initial plan and then the plans `p` is at most, and with
many proposals in each step nearly, the probability of that path for the transition probabilities `K`; an allowed move has the probability of the proposal among the allowed moves times
`min(1, cut edges before / cut edges after)`, every other move to another plan has probability 0, and otherwise the plan is repeated. -/
theorem C114_slow_run (hs : FlipSetting G W a S) :
    ∃ (c : ℚ) (K : (V → Option P) → (V → Option P) → ℚ), 0 ≤ c ∧ c < 1 ∧
      (∀ m ∈ S, ∑ m' ∈ S, K m m' = 1) ∧
      (∀ m ∈ S, ∀ v u, (v, u) ∈ allowedPairs G m W → K m (moved m v (m u)) = ((1 : ℚ) / (allowedMoves G m W).card) * min 1 (((cutPairs G m).card : ℚ) / (cutPairs G (moved m v (m u))).card)) ∧
      (∀ m m', m' ≠ m → ¬ FlipMove G W m m' → K m m' = 0) ∧
      ∀ N, 0 < N → (∀ m ∈ S, (allowedMoves G m (fun _ => true)).card ∣ N) → CutsDivide N G S → ∀ cs, Decides W cs → ∀ ch : Chain Tape (PlanState V P), ch.isValid = cs →
      ∀ (p : List (V → Option P)), (∀ m ∈ p, m ∈ S) → ∀ f body L, 0 < f → p.length + 1 < body → p.length * (f * 2) ≤ L →
        avg N L (fun t => listValue (fun x => x.plan.mapping.get?) (fun l => if l = a.mapping.get? :: p then 1 else 0)
            (ch.list (flipChain (slowMove N G) (cutAccept N G) ⟨a, none⟩ (p.length + 1 : ℕ)) f body t)) ≤ pathProb K a.mapping.get? p ∧
        (1 - c ^ f) ^ p.length * pathProb K a.mapping.get? p ≤
          avg N L (fun t => listValue (fun x => x.plan.mapping.get?) (fun l => if l = a.mapping.get? :: p then 1 else 0)
            (ch.list (flipChain (slowMove N G) (cutAccept N G) ⟨a, none⟩ (p.length + 1 : ℕ)) f body t)) := by
  have hwalk := slow_cut_walk G W a S hs
  obtain ⟨c, hc⟩ := hwalk.refusal ⟨_, hs.initial⟩
  refine ⟨c, walkKernel S (pairRate G W (fun _ _ => 1)) (cutAcceptChance G), hc.1, hc.2.1, hwalk.isKernel.sum, fun m hm v u h => ?_, fun m m' hne h => walkKernel_none hne h, ?_⟩
  · rw [walkKernel_move hs hm h, slow_pairWeight]
    rfl
  · intro N hN hd hcut cs hcs ch hch p hp f body L hf hbody hL
    exact rate_run hwalk hc (cut_rateLaw (x0 := ⟨a, none⟩) (steps := (p.length + 1 : ℕ)) hs hcs hN hcut (fun x hx => (slow_flipLaw hs hN hd hx).toPair)) hN p hp rfl ⟨hs.coherent, hs.covers, hs.initial⟩ ch hch f body hf hbody L hL

/-- **C114** (convergence, `slow_reversible_propose` with `cut_edge_accept`) However small `ε` and `δ` are, every run that is long enough and makes enough proposals in each step is finished with an
average of the score within `ε` of the mean over the plans that can be reached, weighted with their number of allowed moves divided by their number of cut edges, with probability at least `1 - δ`. -/
theorem C114_slow_converges (hs : FlipSetting G W a S) (score : (V → Option P) → ℚ) (ε δ : ℚ) (hε : 0 < ε) (hδ : 0 < δ) :
    ∃ n0 : ℕ, ∀ n, n0 ≤ n → ∃ f0 : ℕ, ∀ f, f0 ≤ f → ∀ N, 0 < N → (∀ m ∈ S, (allowedMoves G m (fun _ => true)).card ∣ N) → CutsDivide N G S → ∀ cs, Decides W cs →
      ∀ ch : Chain Tape (PlanState V P), ch.isValid = cs → ∀ body L, n + 1 < body → n * (f * 2) ≤ L →
        1 - δ ≤ avg N L (fun t => listValue (fun x => x.plan.mapping.get?) (fun l => if |(l.map score).sum / l.length -
            (∑ m ∈ S, ((allowedMoves G m W).card : ℚ) / (cutPairs G m).card * score m) / ∑ m ∈ S, ((allowedMoves G m W).card : ℚ) / (cutPairs G m).card| < ε then 1 else 0)
          (ch.list (flipChain (slowMove N G) (cutAccept N G) ⟨a, none⟩ (n + 1 : ℕ)) f body t)) := by
  have hwalk := slow_cut_walk G W a S hs
  have hπ := pairs_invariant hs (slow_symmRates (W := W)) hwalk
  have hc := pairs_connects hs (slow_posRates (W := W)) hwalk (fun m hm m' hm' => cutAcceptChance_pos (cutPairs_nonempty hs hm) (cutPairs_nonempty hs hm'))
  obtain ⟨n0, h⟩ := rate_converges (R := PlanState V P) hwalk ⟨_, hs.initial⟩ hπ hc score hε hδ
  refine ⟨n0, fun n hn => ?_⟩
  obtain ⟨f0, h⟩ := h n hn
  refine ⟨f0, ?_⟩
  intro f hf N hN hd hcut cs hcs ch hch body L hbody hL
  have := h f hf (cut_rateLaw (x0 := ⟨a, none⟩) (steps := (n + 1 : ℕ)) hs hcs hN hcut (fun x hx => (slow_flipLaw hs hN hd hx).toPair)) hN rfl ⟨hs.coherent, hs.covers, hs.initial⟩ ch hch body L hbody hL
  rw [cutShare_mean] at this
  simp only [slow_pairWeight] at this
  exact this

/-- **C114** (the last plan, `slow_reversible_propose` with `cut_edge_accept`) If somewhere an allowed move increases the number of cut edges, the law of the last plan of a long run converges to these
weights. -/
theorem C114_slow_last (hs : FlipSetting G W a S) (m0 : V → Option P) (hm0 : m0 ∈ S) (v u : V) (hvu : (v, u) ∈ allowedPairs G m0 W)
    (hmore : (cutPairs G m0).card < (cutPairs G (moved m0 v (m0 u))).card) (m : V → Option P) (hm : m ∈ S) (δ : ℚ) (hδ : 0 < δ) :
    ∃ n0 : ℕ, ∀ n, n0 ≤ n → ∃ f0 : ℕ, ∀ f, f0 ≤ f → ∀ N, 0 < N → (∀ m ∈ S, (allowedMoves G m (fun _ => true)).card ∣ N) → CutsDivide N G S → ∀ cs, Decides W cs →
      ∀ ch : Chain Tape (PlanState V P), ch.isValid = cs → ∀ body L, n + 1 < body → n * (f * 2) ≤ L →
        |avg N L (fun t => listValue (fun x => x.plan.mapping.get?) (fun l => if l.getLast? = some m then 1 else 0)
          (ch.list (flipChain (slowMove N G) (cutAccept N G) ⟨a, none⟩ (n + 1 : ℕ)) f body t)) -
            (((allowedMoves G m W).card : ℚ) / (cutPairs G m).card) / ∑ m' ∈ S, ((allowedMoves G m' W).card : ℚ) / (cutPairs G m').card| ≤ δ := by
  have hwalk := slow_cut_walk G W a S hs
  have hπ := pairs_invariant hs (slow_symmRates (W := W)) hwalk
  have hc := pairs_connects hs (slow_posRates (W := W)) hwalk (fun m hm m' hm' => cutAcceptChance_pos (cutPairs_nonempty hs hm) (cutPairs_nonempty hs hm'))
  have hmove : FlipMove G W m0 (moved m0 v (m0 u)) := ⟨(v, u), hvu, rfl⟩
  have hm1 := hs.closed hm0 hmove
  have hloop := walk_loop hwalk hm0 hm1 (pairRate_pos hs.wf (slow_posRates (W := W)) hm0 hmove) (cutAcceptChance_lt (cutPairs_nonempty hs hm1) hmore)
  obtain ⟨n0, h⟩ := rate_last (R := PlanState V P) hwalk ⟨_, hs.initial⟩ hπ hc hm0 hloop hm hδ
  refine ⟨n0, fun n hn => ?_⟩
  obtain ⟨f0, h⟩ := h n hn
  refine ⟨f0, ?_⟩
  intro f hf N hN hd hcut cs hcs ch hch body L hbody hL
  have := h f hf (cut_rateLaw (x0 := ⟨a, none⟩) (steps := (n + 1 : ℕ)) hs hcs hN hcut (fun x hx => (slow_flipLaw hs hN hd hx).toPair)) hN rfl ⟨hs.coherent, hs.covers, hs.initial⟩ ch hch body L hbody hL
  unfold cutShare at this
  simp only [slow_pairWeight] at this
  exact this

/-- **C114** (the run, `slow_reversible_propose_bi` with `cut_edge_accept`) The same as `C114_slow_run`. -/
theorem C114_bi_run (hs : FlipSetting G W a S) (han : ∀ m ∈ S, Anchored G m) :
    ∃ (c : ℚ) (K : (V → Option P) → (V → Option P) → ℚ), 0 ≤ c ∧ c < 1 ∧
      (∀ m ∈ S, ∑ m' ∈ S, K m m' = 1) ∧
      (∀ m ∈ S, ∀ v u, (v, u) ∈ allowedPairs G m W → K m (moved m v (m u)) = (1 / ((otherParts G m v).card : ℚ) / biWeight G m W) * min 1 (((cutPairs G m).card : ℚ) / (cutPairs G (moved m v (m u))).card)) ∧
      (∀ m m', m' ≠ m → ¬ FlipMove G W m m' → K m m' = 0) ∧
      ∀ N, 0 < N → (∀ m ∈ S, Divides N G m) → CutsDivide N G S → ∀ cs, Decides W cs → ∀ ch : Chain Tape (PlanState V P), ch.isValid = cs →
      ∀ (p : List (V → Option P)), (∀ m ∈ p, m ∈ S) → ∀ f body L, 0 < f → p.length + 1 < body → p.length * (f * 3) ≤ L →
        avg N L (fun t => listValue (fun x => x.plan.mapping.get?) (fun l => if l = a.mapping.get? :: p then 1 else 0)
            (ch.list (flipChain (biMove N G) (cutAccept N G) ⟨a, none⟩ (p.length + 1 : ℕ)) f body t)) ≤ pathProb K a.mapping.get? p ∧
        (1 - c ^ f) ^ p.length * pathProb K a.mapping.get? p ≤
          avg N L (fun t => listValue (fun x => x.plan.mapping.get?) (fun l => if l = a.mapping.get? :: p then 1 else 0)
            (ch.list (flipChain (biMove N G) (cutAccept N G) ⟨a, none⟩ (p.length + 1 : ℕ)) f body t)) := by
  have hwalk := bi_cut_walk G W a S hs han
  obtain ⟨c, hc⟩ := hwalk.refusal ⟨_, hs.initial⟩
  refine ⟨c, walkKernel S (pairRate G W (fun m x => biRate G m x.1)) (cutAcceptChance G), hc.1, hc.2.1, hwalk.isKernel.sum, fun m hm v u h => ?_, fun m m' hne h => walkKernel_none hne h, ?_⟩
  · rw [walkKernel_move hs hm h, bi_pairWeight]
    rfl
  · intro N hN hd hcut cs hcs ch hch p hp f body L hf hbody hL
    exact rate_run hwalk hc (cut_rateLaw (x0 := ⟨a, none⟩) (steps := (p.length + 1 : ℕ)) hs hcs hN hcut (fun x hx => (bi_flipLaw hs hN hd han hx).toPair)) hN p hp rfl ⟨hs.coherent, hs.covers, hs.initial⟩ ch hch f body hf hbody L hL

/-- **C114** (convergence, `slow_reversible_propose_bi` with `cut_edge_accept`) The same as `C114_slow_converges`,
with the sum over the allowed moves of one divided by the number of districts to which the node could be moved in the place of the number of allowed moves. -/
theorem C114_bi_converges (hs : FlipSetting G W a S) (han : ∀ m ∈ S, Anchored G m) (score : (V → Option P) → ℚ) (ε δ : ℚ) (hε : 0 < ε) (hδ : 0 < δ) :
    ∃ n0 : ℕ, ∀ n, n0 ≤ n → ∃ f0 : ℕ, ∀ f, f0 ≤ f → ∀ N, 0 < N → (∀ m ∈ S, Divides N G m) → CutsDivide N G S → ∀ cs, Decides W cs →
      ∀ ch : Chain Tape (PlanState V P), ch.isValid = cs → ∀ body L, n + 1 < body → n * (f * 3) ≤ L →
        1 - δ ≤ avg N L (fun t => listValue (fun x => x.plan.mapping.get?) (fun l => if |(l.map score).sum / l.length -
            (∑ m ∈ S, (∑ x ∈ allowedMoves G m W, 1 / ((otherParts G m x.1).card : ℚ)) / (cutPairs G m).card * score m) / ∑ m ∈ S, (∑ x ∈ allowedMoves G m W, 1 / ((otherParts G m x.1).card : ℚ)) / (cutPairs G m).card| < ε then 1 else 0)
          (ch.list (flipChain (biMove N G) (cutAccept N G) ⟨a, none⟩ (n + 1 : ℕ)) f body t)) := by
  have hwalk := bi_cut_walk G W a S hs han
  have hπ := pairs_invariant hs (bi_symmRates hs) hwalk
  have hc := pairs_connects hs (bi_posRates hs) hwalk (fun m hm m' hm' => cutAcceptChance_pos (cutPairs_nonempty hs hm) (cutPairs_nonempty hs hm'))
  obtain ⟨n0, h⟩ := rate_converges (R := PlanState V P) hwalk ⟨_, hs.initial⟩ hπ hc score hε hδ
  refine ⟨n0, fun n hn => ?_⟩
  obtain ⟨f0, h⟩ := h n hn
  refine ⟨f0, ?_⟩
  intro f hf N hN hd hcut cs hcs ch hch body L hbody hL
  have := h f hf (cut_rateLaw (x0 := ⟨a, none⟩) (steps := (n + 1 : ℕ)) hs hcs hN hcut (fun x hx => (bi_flipLaw hs hN hd han hx).toPair)) hN rfl ⟨hs.coherent, hs.covers, hs.initial⟩ ch hch body L hbody hL
  rw [cutShare_mean] at this
  simp only [bi_pairWeight] at this
  exact this

/-- **C114** (the last plan, `slow_reversible_propose_bi` with `cut_edge_accept`) -/
theorem C114_bi_last (hs : FlipSetting G W a S) (han : ∀ m ∈ S, Anchored G m) (m0 : V → Option P) (hm0 : m0 ∈ S) (v u : V) (hvu : (v, u) ∈ allowedPairs G m0 W)
    (hmore : (cutPairs G m0).card < (cutPairs G (moved m0 v (m0 u))).card) (m : V → Option P) (hm : m ∈ S) (δ : ℚ) (hδ : 0 < δ) :
    ∃ n0 : ℕ, ∀ n, n0 ≤ n → ∃ f0 : ℕ, ∀ f, f0 ≤ f → ∀ N, 0 < N → (∀ m ∈ S, Divides N G m) → CutsDivide N G S → ∀ cs, Decides W cs →
      ∀ ch : Chain Tape (PlanState V P), ch.isValid = cs → ∀ body L, n + 1 < body → n * (f * 3) ≤ L →
        |avg N L (fun t => listValue (fun x => x.plan.mapping.get?) (fun l => if l.getLast? = some m then 1 else 0)
          (ch.list (flipChain (biMove N G) (cutAccept N G) ⟨a, none⟩ (n + 1 : ℕ)) f body t)) -
            ((∑ x ∈ allowedMoves G m W, 1 / ((otherParts G m x.1).card : ℚ)) / (cutPairs G m).card) / ∑ m' ∈ S, (∑ x ∈ allowedMoves G m' W, 1 / ((otherParts G m' x.1).card : ℚ)) / (cutPairs G m').card| ≤ δ := by
  have hwalk := bi_cut_walk G W a S hs han
  have hπ := pairs_invariant hs (bi_symmRates hs) hwalk
  have hc := pairs_connects hs (bi_posRates hs) hwalk (fun m hm m' hm' => cutAcceptChance_pos (cutPairs_nonempty hs hm) (cutPairs_nonempty hs hm'))
  have hmove : FlipMove G W m0 (moved m0 v (m0 u)) := ⟨(v, u), hvu, rfl⟩
  have hm1 := hs.closed hm0 hmove
  have hloop := walk_loop hwalk hm0 hm1 (pairRate_pos hs.wf (bi_posRates hs) hm0 hmove) (cutAcceptChance_lt (cutPairs_nonempty hs hm1) hmore)
  obtain ⟨n0, h⟩ := rate_last (R := PlanState V P) hwalk ⟨_, hs.initial⟩ hπ hc hm0 hloop hm hδ
  refine ⟨n0, fun n hn => ?_⟩
  obtain ⟨f0, h⟩ := h n hn
  refine ⟨f0, ?_⟩
  intro f hf N hN hd hcut cs hcs ch hch body L hbody hL
  have := h f hf (cut_rateLaw (x0 := ⟨a, none⟩) (steps := (n + 1 : ℕ)) hs hcs hN hcut (fun x hx => (bi_flipLaw hs hN hd han hx).toPair)) hN rfl ⟨hs.coherent, hs.covers, hs.initial⟩ ch hch body L hbody hL
  unfold cutShare at this
  simp only [bi_pairWeight] at this
  exact this

end c114

/-! ### `propose_random_flip` -/

section c115
variable (G : Graph V) (W : (V → Option P) → Bool) (a : Assignment V P) (S : Finset (V → Option P)) [DecidableEq (V → Option P)]

/-- the ordered pairs of ends of cut edges whose flip leads from `m` to `m'`, if it is allowed -/
def pairsTo (m m' : V → Option P) : Finset (V × V) := (allowedPairs G m W).filter (fun x => moved m x.1 (m x.2) = m')

/-- Weights that the chain with `propose_random_flip` keeps, when a move from `m` to `m'` is accepted with probability `w m m'`: as much flows into each plan as out of it. -/
structure FlowBalance (w : (V → Option P) → (V → Option P) → ℚ) (π : (V → Option P) → ℚ) : Prop where
  nonneg : ∀ m ∈ S, 0 ≤ π m
  sum : ∑ m ∈ S, π m = 1
  flow : ∀ m' ∈ S, ∑ m ∈ S, π m * ((pairsTo G W m m').card / (allowedPairs G m W).card * w m m') =
    π m' * ∑ m ∈ S, (pairsTo G W m' m).card / (allowedPairs G m' W).card * w m' m

variable {G W a S}

theorem nbr_rate (hG : G.WF) (m m' : V → Option P) : pairRate G W (nbrRate G) m m' = (pairsTo G W m m').card := by
  have e : (allowedMoves G m W).filter (fun x => moved m x.1 x.2 = m') = allowedMoves G m (fun m'' => W m'' && decide (m'' = m')) := by
    ext ⟨v, o⟩
    unfold allowedMoves allowedPairs
    simp only [Finset.mem_filter, Finset.mem_image, Bool.and_eq_true, decide_eq_true_eq, Prod.mk.injEq]
    constructor
    · rintro ⟨⟨x, ⟨h1, h2⟩, rfl, rfl⟩, h3⟩
      exact ⟨x, ⟨h1, h2, h3⟩, rfl, rfl⟩
    · rintro ⟨x, ⟨h1, h2, h3⟩, rfl, rfl⟩
      exact ⟨⟨x, ⟨h1, h2⟩, rfl, rfl⟩, h3⟩
  unfold pairRate
  rw [e]
  refine (nbr_weight (W := fun m'' => W m'' && decide (m'' = m')) hG m).trans ?_
  refine congrArg (fun k : ℕ => (k : ℚ)) (congrArg Finset.card ?_)
  unfold pairsTo allowedPairs
  rw [Finset.filter_filter]
  exact Finset.filter_congr (fun x _ => by simp)

theorem random_walk (hs : FlipSetting G W a S) {w : (V → Option P) → (V → Option P) → ℚ} (hw : IsChance S w) :
    RateWalk S (fun m => (1 : ℚ) / (cutPairs G m).card) (pairRate G W (nbrRate G)) w := by
  have hN : 0 < ∏ m ∈ S, (cutPairs G m).card := Finset.prod_pos (fun m hm => Finset.card_pos.2 (cutPairs_nonempty hs hm))
  exact pairs_walk (prop := randomMove (∏ m ∈ S, (cutPairs G m).card) G) hs (nbr_posRates hs) hN (random_pos hs)
    (fun x hx => random_pairLaw hs hN (fun m hm => Finset.dvd_prod_of_mem _ hm) hx) hw

theorem random_rateKernel (hs : FlipSetting G W a S) {m : V → Option P} (hm : m ∈ S) (m' : V → Option P) :
    rateKernel S (pairRate G W (nbrRate G)) m m' = (pairsTo G W m m').card / (allowedPairs G m W).card := by
  unfold rateKernel
  rw [pairWeight_eq hs hm, nbr_weight hs.wf, nbr_rate hs.wf]

theorem flowBalance_iff (hs : FlipSetting G W a S) {w : (V → Option P) → (V → Option P) → ℚ} (hw : IsChance S w) (π : (V → Option P) → ℚ) :
    FlowBalance G W S w π ↔ Invariant S (walkKernel S (pairRate G W (nbrRate G)) w) π := by
  have hK := (random_walk hs hw).rateKernel
  have key : ∀ m' ∈ S, (∑ m ∈ S, π m * walkKernel S (pairRate G W (nbrRate G)) w m m' = π m' ↔
      ∑ m ∈ S, π m * ((pairsTo G W m m').card / (allowedPairs G m W).card * w m m') = π m' * ∑ m ∈ S, (pairsTo G W m' m).card / (allowedPairs G m' W).card * w m' m) := by
    intro m' hm'
    have e1 : ∑ m ∈ S, π m * walkKernel S (pairRate G W (nbrRate G)) w m m' =
        ∑ m ∈ S, π m * ((pairsTo G W m m').card / (allowedPairs G m W).card * w m m') + π m' * ∑ z ∈ S, (pairsTo G W m' z).card / (allowedPairs G m' W).card * (1 - w m' z) := by
      unfold walkKernel tiltRate
      simp only [mul_add]
      rw [Finset.sum_add_distrib]
      congr 1
      · exact Finset.sum_congr rfl (fun m hm => by rw [random_rateKernel hs hm])
      · rw [Finset.sum_eq_single_of_mem m' hm' (fun m _ hne => by rw [if_neg (fun h => hne h.symm), mul_zero]), if_pos rfl]
        congr 1
        exact Finset.sum_congr rfl (fun m _ => by rw [random_rateKernel hs hm'])
    have e2 : ∑ z ∈ S, (((pairsTo G W m' z).card : ℚ) / (allowedPairs G m' W).card) = 1 := by
      rw [← hK.sum m' hm']
      exact Finset.sum_congr rfl (fun m _ => by rw [random_rateKernel hs hm'])
    have e3 : ∑ z ∈ S, ((pairsTo G W m' z).card : ℚ) / (allowedPairs G m' W).card * (1 - w m' z) =
        1 - ∑ m ∈ S, (pairsTo G W m' m).card / (allowedPairs G m' W).card * w m' m := by
      simp only [mul_sub, mul_one]
      rw [Finset.sum_sub_distrib, e2]
    rw [e1, e3]
    constructor <;> intro h <;> linarith
  constructor
  · exact fun h => ⟨h.nonneg, h.sum, fun m hm => (key m hm).2 (h.flow m hm)⟩
  · exact fun h => ⟨h.nonneg, h.sum, fun m hm => (key m hm).1 (h.step m hm)⟩

theorem one_isChance : IsChance S (fun _ _ => 1) := fun _ _ _ _ => ⟨zero_le_one, le_rfl⟩

variable (G W a S)

/-- **C115** (the run, `propose_random_flip` with `always_accept`) The probability that a run is finished and that its plans are the initial plan and then the plans `p` is at most, and with
many proposals in each step nearly, the probability of that path for the transition probabilities `K`; a move is likely in proportion to the number of neighbours of the node in its new district. -/
theorem C115_always_run (hs : FlipSetting G W a S) :
    ∃ (c : ℚ) (K : (V → Option P) → (V → Option P) → ℚ), 0 ≤ c ∧ c < 1 ∧
      (∀ m ∈ S, ∑ m' ∈ S, K m m' = 1) ∧
      (∀ m ∈ S, ∀ v u, (v, u) ∈ allowedPairs G m W → K m (moved m v (m u)) = (nbrsIn G m v (m u)).card / (allowedPairs G m W).card) ∧
      (∀ m m', m' ≠ m → ¬ FlipMove G W m m' → K m m' = 0) ∧
      ∀ N, 0 < N → CutsDivide N G S → ∀ cs, Decides W cs → ∀ ch : Chain Tape (PlanState V P), ch.isValid = cs →
      ∀ (p : List (V → Option P)), (∀ m ∈ p, m ∈ S) → ∀ f body L, 0 < f → p.length + 1 < body → p.length * (f * 2) ≤ L →
        avg N L (fun t => listValue (fun x => x.plan.mapping.get?) (fun l => if l = a.mapping.get? :: p then 1 else 0)
            (ch.list (flipChain (randomMove N G) alwaysAccept ⟨a, none⟩ (p.length + 1 : ℕ)) f body t)) ≤ pathProb K a.mapping.get? p ∧
        (1 - c ^ f) ^ p.length * pathProb K a.mapping.get? p ≤
          avg N L (fun t => listValue (fun x => x.plan.mapping.get?) (fun l => if l = a.mapping.get? :: p then 1 else 0)
            (ch.list (flipChain (randomMove N G) alwaysAccept ⟨a, none⟩ (p.length + 1 : ℕ)) f body t)) := by
  have hwalk := random_walk hs one_isChance
  obtain ⟨c, hc⟩ := hwalk.refusal ⟨_, hs.initial⟩
  refine ⟨c, walkKernel S (pairRate G W (nbrRate G)) (fun _ _ => 1), hc.1, hc.2.1, hwalk.isKernel.sum, fun m hm v u h => ?_, fun m m' hne h => walkKernel_none hne h, ?_⟩
  · rw [walkKernel_move hs hm h, nbr_weight hs.wf]
    rw [mul_one]; rfl
  · intro N hN hcut cs hcs ch hch p hp f body L hf hbody hL
    exact rate_run hwalk hc (always_rateLaw (x0 := ⟨a, none⟩) (steps := (p.length + 1 : ℕ)) hs hcs hN (fun x hx => random_pairLaw hs hN hcut hx)) hN p hp rfl ⟨hs.coherent, hs.covers, hs.initial⟩ ch hch f body hf hbody L hL

/-- **C115** (convergence, `propose_random_flip` with `always_accept`) Ensemble averages converge to the mean for the only weights that the chain keeps. -/
theorem C115_always_converges (hs : FlipSetting G W a S) :
    ∃ π : (V → Option P) → ℚ, (∀ m ∈ S, 0 < π m) ∧ FlowBalance G W S (fun _ _ => 1) π ∧ (∀ π', FlowBalance G W S (fun _ _ => 1) π' → ∀ m ∈ S, π' m = π m) ∧
      ∀ (score : (V → Option P) → ℚ) (ε δ : ℚ), 0 < ε → 0 < δ →
        ∃ n0 : ℕ, ∀ n, n0 ≤ n → ∃ f0 : ℕ, ∀ f, f0 ≤ f → ∀ N, 0 < N → CutsDivide N G S → ∀ cs, Decides W cs →
          ∀ ch : Chain Tape (PlanState V P), ch.isValid = cs → ∀ body L, n + 1 < body → n * (f * 2) ≤ L →
            1 - δ ≤ avg N L (fun t => listValue (fun x => x.plan.mapping.get?) (fun l => if |(l.map score).sum / l.length - ∑ m ∈ S, π m * score m| < ε then 1 else 0)
              (ch.list (flipChain (randomMove N G) alwaysAccept ⟨a, none⟩ (n + 1 : ℕ)) f body t)) := by
  have hwalk := random_walk hs one_isChance
  have hc := pairs_connects hs (nbr_posRates hs) hwalk (fun _ _ _ _ => one_pos)
  obtain ⟨π, hπ⟩ := exists_invariant hwalk.isKernel ⟨_, hs.initial⟩
  refine ⟨π, hπ.pos hwalk.isKernel hc, (flowBalance_iff hs one_isChance π).2 hπ, fun π' h => hπ.unique ((flowBalance_iff hs one_isChance π').1 h) hwalk.isKernel hc, ?_⟩
  intro score ε δ hε hδ
  obtain ⟨n0, h⟩ := rate_converges (R := PlanState V P) hwalk ⟨_, hs.initial⟩ hπ hc score hε hδ
  refine ⟨n0, fun n hn => ?_⟩
  obtain ⟨f0, h⟩ := h n hn
  refine ⟨f0, ?_⟩
  intro f hf N hN hcut cs hcs ch hch body L hbody hL
  exact h f hf (always_rateLaw (x0 := ⟨a, none⟩) (steps := (n + 1 : ℕ)) hs hcs hN (fun x hx => random_pairLaw hs hN hcut hx)) hN rfl ⟨hs.coherent, hs.covers, hs.initial⟩ ch hch body L hbody hL

/-- **C115** (the run, `propose_random_flip` with `cut_edge_accept`) The same as `C115_always_run`. -/
theorem C115_cut_run (hs : FlipSetting G W a S) :
    ∃ (c : ℚ) (K : (V → Option P) → (V → Option P) → ℚ), 0 ≤ c ∧ c < 1 ∧
      (∀ m ∈ S, ∑ m' ∈ S, K m m' = 1) ∧
      (∀ m ∈ S, ∀ v u, (v, u) ∈ allowedPairs G m W → K m (moved m v (m u)) = (nbrsIn G m v (m u)).card / (allowedPairs G m W).card * min 1 (((cutPairs G m).card : ℚ) / (cutPairs G (moved m v (m u))).card)) ∧
      (∀ m m', m' ≠ m → ¬ FlipMove G W m m' → K m m' = 0) ∧
      ∀ N, 0 < N → CutsDivide N G S → ∀ cs, Decides W cs → ∀ ch : Chain Tape (PlanState V P), ch.isValid = cs →
      ∀ (p : List (V → Option P)), (∀ m ∈ p, m ∈ S) → ∀ f body L, 0 < f → p.length + 1 < body → p.length * (f * 3) ≤ L →
        avg N L (fun t => listValue (fun x => x.plan.mapping.get?) (fun l => if l = a.mapping.get? :: p then 1 else 0)
            (ch.list (flipChain (randomMove N G) (cutAccept N G) ⟨a, none⟩ (p.length + 1 : ℕ)) f body t)) ≤ pathProb K a.mapping.get? p ∧
        (1 - c ^ f) ^ p.length * pathProb K a.mapping.get? p ≤
          avg N L (fun t => listValue (fun x => x.plan.mapping.get?) (fun l => if l = a.mapping.get? :: p then 1 else 0)
            (ch.list (flipChain (randomMove N G) (cutAccept N G) ⟨a, none⟩ (p.length + 1 : ℕ)) f body t)) := by
  have hwalk := random_walk hs (cutAcceptChance_isChance hs)
  obtain ⟨c, hc⟩ := hwalk.refusal ⟨_, hs.initial⟩
  refine ⟨c, walkKernel S (pairRate G W (nbrRate G)) (cutAcceptChance G), hc.1, hc.2.1, hwalk.isKernel.sum, fun m hm v u h => ?_, fun m m' hne h => walkKernel_none hne h, ?_⟩
  · rw [walkKernel_move hs hm h, nbr_weight hs.wf]
    rfl
  · intro N hN hcut cs hcs ch hch p hp f body L hf hbody hL
    exact rate_run hwalk hc (cut_rateLaw (x0 := ⟨a, none⟩) (steps := (p.length + 1 : ℕ)) hs hcs hN hcut (fun x hx => random_pairLaw hs hN hcut hx)) hN p hp rfl ⟨hs.coherent, hs.covers, hs.initial⟩ ch hch f body hf hbody L hL

/-- **C115** (convergence, `propose_random_flip` with `cut_edge_accept`) Ensemble averages converge to the mean for the only weights that the chain keeps. -/
theorem C115_cut_converges (hs : FlipSetting G W a S) :
    ∃ π : (V → Option P) → ℚ, (∀ m ∈ S, 0 < π m) ∧ FlowBalance G W S (cutAcceptChance G) π ∧ (∀ π', FlowBalance G W S (cutAcceptChance G) π' → ∀ m ∈ S, π' m = π m) ∧
      ∀ (score : (V → Option P) → ℚ) (ε δ : ℚ), 0 < ε → 0 < δ →
        ∃ n0 : ℕ, ∀ n, n0 ≤ n → ∃ f0 : ℕ, ∀ f, f0 ≤ f → ∀ N, 0 < N → CutsDivide N G S → ∀ cs, Decides W cs →
          ∀ ch : Chain Tape (PlanState V P), ch.isValid = cs → ∀ body L, n + 1 < body → n * (f * 3) ≤ L →
            1 - δ ≤ avg N L (fun t => listValue (fun x => x.plan.mapping.get?) (fun l => if |(l.map score).sum / l.length - ∑ m ∈ S, π m * score m| < ε then 1 else 0)
              (ch.list (flipChain (randomMove N G) (cutAccept N G) ⟨a, none⟩ (n + 1 : ℕ)) f body t)) := by
  have hwalk := random_walk hs (cutAcceptChance_isChance hs)
  have hc := pairs_connects hs (nbr_posRates hs) hwalk (fun m hm m' hm' => cutAcceptChance_pos (cutPairs_nonempty hs hm) (cutPairs_nonempty hs hm'))
  obtain ⟨π, hπ⟩ := exists_invariant hwalk.isKernel ⟨_, hs.initial⟩
  refine ⟨π, hπ.pos hwalk.isKernel hc, (flowBalance_iff hs (cutAcceptChance_isChance hs) π).2 hπ, fun π' h => hπ.unique ((flowBalance_iff hs (cutAcceptChance_isChance hs) π').1 h) hwalk.isKernel hc, ?_⟩
  intro score ε δ hε hδ
  obtain ⟨n0, h⟩ := rate_converges (R := PlanState V P) hwalk ⟨_, hs.initial⟩ hπ hc score hε hδ
  refine ⟨n0, fun n hn => ?_⟩
  obtain ⟨f0, h⟩ := h n hn
  refine ⟨f0, ?_⟩
  intro f hf N hN hcut cs hcs ch hch body L hbody hL
  exact h f hf (cut_rateLaw (x0 := ⟨a, none⟩) (steps := (n + 1 : ℕ)) hs hcs hN hcut (fun x hx => random_pairLaw hs hN hcut hx)) hN rfl ⟨hs.coherent, hs.covers, hs.initial⟩ ch hch body L hbody hL

/-- **C115** (the last plan, `propose_random_flip` with `cut_edge_accept`) If somewhere an allowed move increases the number of cut edges, the law of the last plan of a long run
converges to the weights that the chain keeps. -/
theorem C115_cut_last (hs : FlipSetting G W a S) (m0 : V → Option P) (hm0 : m0 ∈ S) (v u : V) (hvu : (v, u) ∈ allowedPairs G m0 W)
    (hmore : (cutPairs G m0).card < (cutPairs G (moved m0 v (m0 u))).card) (π : (V → Option P) → ℚ) (hπ : FlowBalance G W S (cutAcceptChance G) π) (m : V → Option P) (hm : m ∈ S) (δ : ℚ) (hδ : 0 < δ) :
    ∃ n0 : ℕ, ∀ n, n0 ≤ n → ∃ f0 : ℕ, ∀ f, f0 ≤ f → ∀ N, 0 < N → CutsDivide N G S → ∀ cs, Decides W cs →
      ∀ ch : Chain Tape (PlanState V P), ch.isValid = cs → ∀ body L, n + 1 < body → n * (f * 3) ≤ L →
        |avg N L (fun t => listValue (fun x => x.plan.mapping.get?) (fun l => if l.getLast? = some m then 1 else 0)
          (ch.list (flipChain (randomMove N G) (cutAccept N G) ⟨a, none⟩ (n + 1 : ℕ)) f body t)) - π m| ≤ δ := by
  have hwalk := random_walk hs (cutAcceptChance_isChance hs)
  have hc := pairs_connects hs (nbr_posRates hs) hwalk (fun m hm m' hm' => cutAcceptChance_pos (cutPairs_nonempty hs hm) (cutPairs_nonempty hs hm'))
  have hmove : FlipMove G W m0 (moved m0 v (m0 u)) := ⟨(v, u), hvu, rfl⟩
  have hm1 := hs.closed hm0 hmove
  have hloop := walk_loop hwalk hm0 hm1 (pairRate_pos hs.wf (nbr_posRates hs) hm0 hmove) (cutAcceptChance_lt (cutPairs_nonempty hs hm1) hmore)
  obtain ⟨n0, h⟩ := rate_last (R := PlanState V P) hwalk ⟨_, hs.initial⟩ ((flowBalance_iff hs (cutAcceptChance_isChance hs) π).1 hπ) hc hm0 hloop hm hδ
  refine ⟨n0, fun n hn => ?_⟩
  obtain ⟨f0, h⟩ := h n hn
  refine ⟨f0, ?_⟩
  intro f hf N hN hcut cs hcs ch hch body L hbody hL
  exact h f hf (cut_rateLaw (x0 := ⟨a, none⟩) (steps := (n + 1 : ℕ)) hs hcs hN hcut (fun x hx => random_pairLaw hs hN hcut hx)) hN rfl ⟨hs.coherent, hs.covers, hs.initial⟩ ch hch body L hbody hL

/-- **C115** (the weights) If every allowed move takes a node to a district in which it has as many neighbours as in the district it leaves, the chain with `always_accept` keeps the plans weighted with
the number of ordered pairs of ends of cut edges whose flip is allowed. -/
theorem C115_balanced (hs : FlipSetting G W a S)
    (hbal : ∀ m ∈ S, ∀ v u, (v, u) ∈ allowedPairs G m W → (nbrsIn G m v (m u)).card = (nbrsIn G (moved m v (m u)) v (m v)).card) :
    FlowBalance G W S (fun _ _ => 1) (fun m => (allowedPairs G m W).card / ∑ m' ∈ S, ((allowedPairs G m' W).card : ℚ)) := by
  have hwalk := random_walk hs one_isChance
  have hsymm : SymmRates G W S (nbrRate G) := fun m hm v u h => congrArg (fun k : ℕ => (k : ℚ)) (hbal m hm v u h)
  have h := balance_invariant hwalk ⟨_, hs.initial⟩ (fun m hm m' hm' => pairRate_symm hs hsymm hm hm') (g := fun _ => 1) (fun _ _ => one_pos) (fun _ _ _ _ => by simp)
  have e : ∀ m ∈ S, (rateSum S (pairRate G W (nbrRate G)) m / 1) / ∑ y ∈ S, rateSum S (pairRate G W (nbrRate G)) y / 1 = (allowedPairs G m W).card / ∑ m' ∈ S, ((allowedPairs G m' W).card : ℚ) := by
    intro m hm
    rw [pairWeight_eq hs hm, nbr_weight hs.wf, div_one]
    congr 1
    exact Finset.sum_congr rfl (fun y hy => by rw [pairWeight_eq hs hy, nbr_weight hs.wf, div_one])
  rw [flowBalance_iff hs one_isChance]
  refine ⟨fun m hm => ?_, ?_, fun m hm => ?_⟩
  · rw [← e m hm]
    exact h.nonneg m hm
  · rw [← h.sum]
    exact Finset.sum_congr rfl (fun m hm => (e m hm).symm)
  · rw [← e m hm, ← h.step m hm]
    exact Finset.sum_congr rfl (fun y hy => by rw [e y hy])

end c115

/-! ### Examples -/

/-- a triangle with a tail: 0, 1, 2 are neighbours of each other, then 2 - 3 - 4 -/
def kite : Graph (Fin 5) := ⟨Finset.univ, {(0, 1), (0, 2), (1, 2), (2, 3), (3, 4)}⟩

/-- the two plans: node 2 is with 3 and 4 (two cut edges), or with 0 and 1 (one cut edge) -/
def kitePlans : Finset (Fin 5 → Option (Fin 2)) := {biC.mapping.get?, biD.mapping.get?}

theorem kite_flipSetting : FlipSetting kite twoEach biC kitePlans where
  wf := by constructor <;> decide
  coherent := biPath_coherent.1
  covers := by unfold Assignment.Covers; decide
  valid := by decide +kernel
  mem := by
    have hclosed : ∀ m ∈ kitePlans, ∀ x ∈ allowedPairs kite m twoEach, moved m x.1 (m x.2) ∈ kitePlans := by decide +kernel
    have hD : FlipReach kite twoEach biC.mapping.get? biD.mapping.get? := .single ⟨(2, 1), by decide +kernel, by decide +kernel⟩
    intro m
    constructor
    · intro hm
      unfold kitePlans at hm
      simp only [Finset.mem_insert, Finset.mem_singleton] at hm
      rcases hm with rfl | rfl
      · exact .refl
      · exact hD
    · intro h
      induction h with
      | refl => decide +kernel
      | tail _ h ih =>
        obtain ⟨x, hx, rfl⟩ := h
        exact hclosed _ ih x hx
  back := by unfold Graph.Adj; decide +kernel
  moves := by decide +kernel

theorem kite_cutsDivide : CutsDivide 12 kite kitePlans := by
  unfold CutsDivide
  decide +kernel

theorem kite_divides : ∀ m ∈ kitePlans, Divides 12 kite m := by
  have : ∀ m ∈ kitePlans, (boundaryNodes kite m).card ∣ 12 ∧ ∀ v ∈ boundaryNodes kite m, (otherParts kite m v).card ∣ 12 := by decide +kernel
  exact fun m hm => ⟨(this m hm).1, (this m hm).2⟩

/-- the average number of nodes of the first district tends to 2/3 * 3 + 1/3 * 2 -/
example (ε δ : ℚ) (hε : 0 < ε) (hδ : 0 < δ) :
    ∃ n0 : ℕ, ∀ n, n0 ≤ n → ∃ f0 : ℕ, ∀ f, f0 ≤ f → 1 - δ ≤ avg 12 (n * (f * 2)) (fun t => listValue (fun x => x.plan.mapping.get?)
      (fun l => if |(l.map (fun m => (districtSize kite m 0 : ℚ))).sum / l.length - 8 / 3| < ε then 1 else 0)
      ((chainAt biC twoEach).list (flipChain (slowMove 12 kite) (cutAccept 12 kite) ⟨biC, none⟩ (n + 1 : ℕ)) f (n + 2) t)) := by
  obtain ⟨n0, h⟩ := C114_slow_converges kite twoEach biC kitePlans kite_flipSetting (fun m => districtSize kite m 0) ε δ hε hδ
  have e : (∑ m ∈ kitePlans, ((allowedMoves kite m twoEach).card : ℚ) / (cutPairs kite m).card * districtSize kite m 0) /
      ∑ m ∈ kitePlans, ((allowedMoves kite m twoEach).card : ℚ) / (cutPairs kite m).card = 8 / 3 := by decide +kernel
  rw [e] at h
  refine ⟨n0, fun n hn => ?_⟩
  obtain ⟨f0, hf0⟩ := h n hn
  exact ⟨f0, fun f hf => hf0 f hf 12 (by decide) (by decide +kernel) kite_cutsDivide _ (chainAt_decides biC twoEach) _ rfl (n + 2) (n * (f * 2)) (by omega) le_rfl⟩

/-- the last plan of a long run is the one with one cut edge with probability nearly 2/3 -/
example (δ : ℚ) (hδ : 0 < δ) :
    ∃ n0 : ℕ, ∀ n, n0 ≤ n → ∃ f0 : ℕ, ∀ f, f0 ≤ f → |avg 12 (n * (f * 2)) (fun t => listValue (fun x => x.plan.mapping.get?)
      (fun l => if l.getLast? = some biD.mapping.get? then 1 else 0)
      ((chainAt biC twoEach).list (flipChain (slowMove 12 kite) (cutAccept 12 kite) ⟨biC, none⟩ (n + 1 : ℕ)) f (n + 2) t)) - 2 / 3| ≤ δ := by
  obtain ⟨n0, h⟩ := C114_slow_last kite twoEach biC kitePlans kite_flipSetting biD.mapping.get? (by decide +kernel) 2 3 (by decide +kernel) (by decide +kernel)
    biD.mapping.get? (by decide +kernel) δ hδ
  have e : (((allowedMoves kite biD.mapping.get? twoEach).card : ℚ) / (cutPairs kite biD.mapping.get?).card) /
      ∑ m ∈ kitePlans, ((allowedMoves kite m twoEach).card : ℚ) / (cutPairs kite m).card = 2 / 3 := by decide +kernel
  rw [e] at h
  refine ⟨n0, fun n hn => ?_⟩
  obtain ⟨f0, hf0⟩ := h n hn
  exact ⟨f0, fun f hf => hf0 f hf 12 (by decide) (by decide +kernel) kite_cutsDivide _ (chainAt_decides biC twoEach) _ rfl (n + 2) (n * (f * 2)) (by omega) le_rfl⟩

/-- the same with `slow_reversible_propose_bi` -/
example (δ : ℚ) (hδ : 0 < δ) :
    ∃ n0 : ℕ, ∀ n, n0 ≤ n → ∃ f0 : ℕ, ∀ f, f0 ≤ f → |avg 12 (n * (f * 3)) (fun t => listValue (fun x => x.plan.mapping.get?)
      (fun l => if l.getLast? = some biD.mapping.get? then 1 else 0)
      ((chainAt biC twoEach).list (flipChain (biMove 12 kite) (cutAccept 12 kite) ⟨biC, none⟩ (n + 1 : ℕ)) f (n + 2) t)) - 2 / 3| ≤ δ := by
  obtain ⟨n0, h⟩ := C114_bi_last kite twoEach biC kitePlans kite_flipSetting (by unfold Anchored; decide +kernel) biD.mapping.get? (by decide +kernel) 2 3 (by decide +kernel) (by decide +kernel)
    biD.mapping.get? (by decide +kernel) δ hδ
  have e : ((∑ x ∈ allowedMoves kite biD.mapping.get? twoEach, 1 / ((otherParts kite biD.mapping.get? x.1).card : ℚ)) / (cutPairs kite biD.mapping.get?).card) /
      ∑ m ∈ kitePlans, (∑ x ∈ allowedMoves kite m twoEach, 1 / ((otherParts kite m x.1).card : ℚ)) / (cutPairs kite m).card = 2 / 3 := by decide +kernel
  rw [e] at h
  refine ⟨n0, fun n hn => ?_⟩
  obtain ⟨f0, hf0⟩ := h n hn
  exact ⟨f0, fun f hf => hf0 f hf 12 (by decide) kite_divides kite_cutsDivide _ (chainAt_decides biC twoEach) _ rfl (n + 2) (n * (f * 3)) (by omega) le_rfl⟩

/-- the run stays where it is, and then goes to the plan with one cut edge: the path is possible, its probability in the limit of many proposals is positive -/
example : ∃ (c : ℚ) (K : (Fin 5 → Option (Fin 2)) → (Fin 5 → Option (Fin 2)) → ℚ), 0 ≤ c ∧ c < 1 ∧ K biC.mapping.get? biD.mapping.get? = 1 ∧ K biD.mapping.get? biC.mapping.get? = 1 / 2 ∧
    ∀ f : ℕ, 0 < f → (1 - c ^ f) ^ 2 * pathProb K biC.mapping.get? [biD.mapping.get?, biC.mapping.get?] ≤
      avg 12 (2 * (f * 2)) (fun t => listValue (fun x => x.plan.mapping.get?) (fun l => if l = [biC.mapping.get?, biD.mapping.get?, biC.mapping.get?] then 1 else 0)
        ((chainAt biC twoEach).list (flipChain (slowMove 12 kite) (cutAccept 12 kite) ⟨biC, none⟩ (2 + 1 : ℕ)) f 4 t)) := by
  obtain ⟨c, K, h0, h1, -, hK, -, h⟩ := C114_slow_run kite twoEach biC kitePlans kite_flipSetting
  have e1 : moved biC.mapping.get? 2 (biC.mapping.get? 1) = biD.mapping.get? := by decide +kernel
  have e2 : moved biD.mapping.get? 2 (biD.mapping.get? 3) = biC.mapping.get? := by decide +kernel
  have k1 := hK biC.mapping.get? (by decide +kernel) 2 1 (by decide +kernel)
  have k2 := hK biD.mapping.get? (by decide +kernel) 2 3 (by decide +kernel)
  rw [e1] at k1
  rw [e2] at k2
  refine ⟨c, K, h0, h1, k1.trans (by decide +kernel), k2.trans (by decide +kernel), fun f hf => ?_⟩
  exact (h 12 (by decide) (by decide +kernel) kite_cutsDivide _ (chainAt_decides biC twoEach) _ rfl [biD.mapping.get?, biC.mapping.get?] (by decide +kernel) f 4 (2 * (f * 2)) hf
    (by decide) le_rfl).2

/-- `propose_random_flip` with `cut_edge_accept` keeps the weights 1/3 and 2/3 -/
theorem kite_flowBalance : FlowBalance kite twoEach kitePlans (cutAcceptChance kite) (fun m => if m 2 = some 0 then 2 / 3 else 1 / 3) where
  nonneg := by decide +kernel
  sum := by decide +kernel
  flow := by decide +kernel

example (δ : ℚ) (hδ : 0 < δ) :
    ∃ n0 : ℕ, ∀ n, n0 ≤ n → ∃ f0 : ℕ, ∀ f, f0 ≤ f → |avg 12 (n * (f * 3)) (fun t => listValue (fun x => x.plan.mapping.get?)
      (fun l => if l.getLast? = some biD.mapping.get? then 1 else 0)
      ((chainAt biC twoEach).list (flipChain (randomMove 12 kite) (cutAccept 12 kite) ⟨biC, none⟩ (n + 1 : ℕ)) f (n + 2) t)) - 2 / 3| ≤ δ := by
  obtain ⟨n0, h⟩ := C115_cut_last kite twoEach biC kitePlans kite_flipSetting biD.mapping.get? (by decide +kernel) 2 3 (by decide +kernel) (by decide +kernel)
    _ kite_flowBalance biD.mapping.get? (by decide +kernel) δ hδ
  refine ⟨n0, fun n hn => ?_⟩
  obtain ⟨f0, hf0⟩ := h n hn
  exact ⟨f0, fun f hf => hf0 f hf 12 (by decide) kite_cutsDivide _ (chainAt_decides biC twoEach) _ rfl (n + 2) (n * (f * 3)) (by omega) le_rfl⟩

/-- the square 0 - 1 - 2 - 3 - 0 with the edge 0 - 2 -/
def chordSquare : Graph (Fin 4) := ⟨Finset.univ, {(0, 1), (1, 2), (2, 3), (0, 3), (0, 2)}⟩

/-- the plans with node 0 in the first district in which both districts are contiguous and not empty, as the labels of the nodes 1, 2, 3 -/
def chordOf (b c d : Fin 2) : Fin 4 → Option (Fin 2) := fun v => if v = 0 then some 0 else if v = 1 then some b else if v = 2 then some c else some d

/-- the six of them -/
def chordPlans : Finset (Fin 4 → Option (Fin 2)) := {chordOf 1 1 1, chordOf 0 1 1, chordOf 1 1 0, chordOf 0 0 1, chordOf 1 0 0, chordOf 0 1 0}

/-- the constraint -/
def chordValid (m : Fin 4 → Option (Fin 2)) : Bool := decide (m ∈ chordPlans)

theorem chord_flipSetting : FlipSetting chordSquare chordValid walkA chordPlans where
  wf := by constructor <;> decide
  coherent := walk_coherent.1
  covers := by unfold Assignment.Covers; decide
  valid := by decide +kernel
  mem := by
    have hclosed : ∀ m ∈ chordPlans, ∀ x ∈ allowedPairs chordSquare m chordValid, moved m x.1 (m x.2) ∈ chordPlans := by decide +kernel
    have h0 : walkA.mapping.get? = chordOf 1 1 1 := by decide +kernel
    have h1 : FlipReach chordSquare chordValid walkA.mapping.get? (chordOf 0 1 1) := .single ⟨(1, 0), by decide +kernel, by decide +kernel⟩
    have h2 : FlipReach chordSquare chordValid walkA.mapping.get? (chordOf 1 1 0) := .single ⟨(3, 0), by decide +kernel, by decide +kernel⟩
    have h3 := h1.tail (c := chordOf 0 0 1) ⟨(2, 0), by decide +kernel, by decide +kernel⟩
    have h4 := h2.tail (c := chordOf 1 0 0) ⟨(2, 0), by decide +kernel, by decide +kernel⟩
    have h5 := h1.tail (c := chordOf 0 1 0) ⟨(3, 0), by decide +kernel, by decide +kernel⟩
    intro m
    constructor
    · intro hm
      unfold chordPlans at hm
      simp only [Finset.mem_insert, Finset.mem_singleton] at hm
      rcases hm with rfl | rfl | rfl | rfl | rfl | rfl
      · rw [← h0]
        exact .refl
      · exact h1
      · exact h2
      · exact h3
      · exact h4
      · exact h5
    · intro h
      induction h with
      | refl => decide +kernel
      | tail _ h ih =>
        obtain ⟨x, hx, rfl⟩ := h
        exact hclosed _ ih x hx
  back := by unfold Graph.Adj; decide +kernel
  moves := by decide +kernel

/-- **C115** (not in proportion to the moves) In general the weights that the chain with `propose_random_flip` keeps are neither equal nor in proportion to the numbers of moves: on the
square with a diagonal they are 1/4 for the plans `0011` and `0110` and 1/8 for the other four, while the numbers of allowed moves (ordered pairs of ends of cut edges) are 2, 4, 4, 1, 1, 2. -/
theorem C115_not_proportional :
    FlowBalance chordSquare chordValid chordPlans (fun _ _ => 1) (fun m => if m = chordOf 0 1 1 ∨ m = chordOf 1 1 0 then 1 / 4 else 1 / 8) ∧
      (allowedPairs chordSquare (chordOf 1 1 1) chordValid).card = 2 ∧ (allowedPairs chordSquare (chordOf 0 0 1) chordValid).card = 1 ∧
      (allowedMoves chordSquare (chordOf 1 1 1) chordValid).card = 2 ∧ (allowedMoves chordSquare (chordOf 0 0 1) chordValid).card = 1 :=
  ⟨⟨by decide +kernel, by decide +kernel, by decide +kernel⟩, by decide +kernel, by decide +kernel, by decide +kernel, by decide +kernel⟩

/-- the share of runs in the plan `0011` tends to 1/4 -/
example (ε δ : ℚ) (hε : 0 < ε) (hδ : 0 < δ) :
    ∃ n0 : ℕ, ∀ n, n0 ≤ n → ∃ f0 : ℕ, ∀ f, f0 ≤ f → 1 - δ ≤ avg 12 (n * (f * 2)) (fun t => listValue (fun x => x.plan.mapping.get?)
      (fun l => if |(l.map (fun m => if m = chordOf 0 1 1 then (1 : ℚ) else 0)).sum / l.length - 1 / 4| < ε then 1 else 0)
      ((chainAt walkA chordValid).list (flipChain (randomMove 12 chordSquare) alwaysAccept ⟨walkA, none⟩ (n + 1 : ℕ)) f (n + 2) t)) := by
  obtain ⟨π, -, -, hu, h⟩ := C115_always_converges chordSquare chordValid walkA chordPlans chord_flipSetting
  have hπ := hu _ C115_not_proportional.1
  obtain ⟨n0, h⟩ := h (fun m => if m = chordOf 0 1 1 then (1 : ℚ) else 0) ε δ hε hδ
  have e : ∑ m ∈ chordPlans, π m * (if m = chordOf 0 1 1 then (1 : ℚ) else 0) = 1 / 4 := by
    rw [Finset.sum_congr rfl (fun m hm => by rw [← hπ m hm])]
    decide +kernel
  rw [e] at h
  refine ⟨n0, fun n hn => ?_⟩
  obtain ⟨f0, hf0⟩ := h n hn
  exact ⟨f0, fun f hf => hf0 f hf 12 (by decide) (by unfold CutsDivide; decide +kernel) _ (chainAt_decides walkA chordValid) _ rfl (n + 2) (n * (f * 2)) (by omega) le_rfl⟩

/-- on the path every node that can be moved has one neighbour on each side -/
example : FlowBalance walkPath noneEmpty walkPlans (fun _ _ => 1) (fun m => (allowedPairs walkPath m noneEmpty).card / ∑ m' ∈ walkPlans, ((allowedPairs walkPath m' noneEmpty).card : ℚ)) :=
  C115_balanced walkPath noneEmpty walkB walkPlans walk_flipSetting (by decide +kernel)

end GC

import Verif.Lemmas.BurstLaw
import Verif.Props.FlipRuns

/-!
# C109: when short bursts find the best plan

`SingleMetricOptimizer.short_bursts` (optimization/optimization.py:376-425) with `always_accept` and the proposals `slow_reversible_propose` or
`slow_reversible_propose_bi` under constraints `W`.  `S` are the plans that allowed moves can reach.  The best plan after each burst is a Markov chain; a burst of
`burst_length = n + 1` plans can lead from the best plan `m` to `m'` if `m'` is the last of the best on a path of `n` allowed moves from `m`.
-/

set_option linter.unusedSectionVars false
set_option autoImplicit false

namespace GC

variable {V P : Type} [LinearOrder V] [LinearOrder P] {A : Type} [LinearOrder A]

/-- a `SingleMetricOptimizer` for plans (optimization/optimization.py:67-74) whose score is a function of the plan; the yielded plans are not used for anything -/
def flipOptimizer (prop : PlanState V P → M Tape (PlanState V P)) (cs : List (Constraint Tape (PlanState V P))) (a : Assignment V P) (σ : (V → Option P) → A) (mx : Bool) :
    OptCfg Tape (PlanState V P) A :=
  ⟨prop, cs, fun _ t => t, ⟨a, none⟩, fun x t => (.ok (σ x.plan.mapping.get?), t), mx, fun _ t => (.ok (), t)⟩

section generic
variable [DecidableEq (V → Option P)] {G : Graph V} {W : (V → Option P) → Bool} {a : Assignment V P} {S : Finset (V → Option P)} {N d : ℕ}
  {prop : PlanState V P → M Tape (PlanState V P)} {cs : List (Constraint Tape (PlanState V P))} {r : (V → Option P) → V → ℚ} {u : (V → Option P) → ℚ}
  {σ : (V → Option P) → A} {mx : Bool}

theorem optLaw_flips (hs : FlipSetting G W a S) (hcs : Decides W cs) (hN : 0 < N)
    (hlaw : ∀ x : PlanState V P, InClass G S x → FlipLaw N d G prop x (u x.plan.mapping.get?) (r x.plan.mapping.get?)) (σ : (V → Option P) → A) (mx : Bool) :
    OptLaw N d (flipOptimizer prop cs a σ mx) alwaysAccept (InClass G S) (fun x => x.plan.mapping.get?) S
      (fun m m' => u m * flipRate G W r m m') (fun m => 1 - u m * flipWeight G W r m) σ where
  tries := fun x steps => tryLaw_flips (x0 := x) (steps := steps) hs hcs hN hlaw
  score := fun _ _ _ => rfl
  consumer := fun _ _ _ => rfl
  valid := fun x hx t => by
    show validator x cs t = _
    rw [hcs x t, hs.all_valid hx.2.2]

/-- the transition probabilities with at most `f` proposals in a step -/
theorem flips_dominated (hs : FlipSetting G W a S) (hr : Rates G W S r) (hcs : Decides W cs) (hN : 0 < N) (hu : ∀ m ∈ S, 0 < u m)
    (hlaw : ∀ x : PlanState V P, InClass G S x → FlipLaw N d G prop x (u x.plan.mapping.get?) (r x.plan.mapping.get?))
    {c : ℚ} (hc : ∀ m ∈ S, 1 - u m * flipWeight G W r m ≤ c) (hc1 : c < 1) (f : ℕ) {m m' : V → Option P} (hm : m ∈ S) (hm' : m' ∈ S) :
    0 ≤ triedKernel (fun m m' => u m * flipRate G W r m m') (fun m => 1 - u m * flipWeight G W r m) f m m' ∧
      triedKernel (fun m m' => u m * flipRate G W r m m') (fun m => 1 - u m * flipWeight G W r m) f m m' ≤ flipKernel G W r m m' ∧
      (1 - c ^ f) * flipKernel G W r m m' ≤ triedKernel (fun m m' => u m * flipRate G W r m m') (fun m => 1 - u m * flipWeight G W r m) f m m' := by
  have hT := tryLaw_flips (x0 := ⟨a, none⟩) (steps := 0) hs hcs hN hlaw
  have hρ0 : 0 ≤ 1 - u m * flipWeight G W r m := by
    obtain ⟨b', rfl, hb'⟩ := hs.represent hm
    have := hT.refuse _ hb'
    dsimp only at this
    rw [← this]
    unfold avg
    exact div_nonneg (Finset.sum_nonneg (fun t _ => wasRefused_nonneg _)) (by positivity)
  have hρ1 : 1 - u m * flipWeight G W r m < 1 := (hc m hm).trans_lt hc1
  have he : triedKernel (fun m m' => u m * flipRate G W r m m') (fun m => 1 - u m * flipWeight G W r m) f m m' =
      (1 - (1 - u m * flipWeight G W r m) ^ f) * flipKernel G W r m m' := by
    rw [triedKernel_eq (ρ := fun m => 1 - u m * flipWeight G W r m) hρ1]
    unfold flipKernel
    rw [sub_sub_cancel, mul_div_mul_left _ _ (hu m hm).ne']
  have hpow : (1 - u m * flipWeight G W r m) ^ f ≤ c ^ f := pow_le_pow_left₀ hρ0 (hc m hm) f
  have hpow1 : (1 - u m * flipWeight G W r m) ^ f ≤ 1 := pow_le_one₀ hρ0 hρ1.le
  have hpow0 := pow_nonneg hρ0 f
  have hK := (flipKernel_isKernel hs hr).nonneg m hm m' hm'
  rw [he]
  refine ⟨mul_nonneg (by linarith) hK, ?_, mul_le_mul_of_nonneg_right (by linarith) hK⟩
  calc _ ≤ 1 * flipKernel G W r m m' := mul_le_mul_of_nonneg_right (by linarith) hK
    _ = _ := one_mul _

/-- The probability that `short_bursts` ends with a best plan in `T`, compared with that of the Markov chain of the best plans. -/
theorem flip_bursts (hs : FlipSetting G W a S) (hr : Rates G W S r) (hcs : Decides W cs) (hN : 0 < N) (hu : ∀ m ∈ S, 0 < u m)
    (hlaw : ∀ x : PlanState V P, InClass G S x → FlipLaw N d G prop x (u x.plan.mapping.get?) (r x.plan.mapping.get?))
    {c : ℚ} (hc0 : 0 ≤ c) (hc : ∀ m ∈ S, 1 - u m * flipWeight G W r m ≤ c) (hc1 : c < 1) (T : PlanState V P × A → Prop) [DecidablePred T] (T' : (V → Option P) → Prop)
    [DecidablePred T'] (hT : ∀ b : PlanState V P × A, InClass G S b.1 → b.2 = σ b.1.plan.mapping.get? → (T b ↔ T' b.1.plan.mapping.get?))
    (n num f body : ℕ) (hf : 0 < f) (hbody : n + 1 < body) (L : ℕ) (hL : num * (n * (f * d)) ≤ L) :
    avg N L (fun t => endsWith T ((flipOptimizer prop cs a σ mx).shortBursts alwaysAccept (n + 1 : ℕ) num f body t)) ≤
        burstsMean S (flipKernel G W r) n σ mx num (isIn T') a.mapping.get? ∧
      (1 - c ^ f) ^ (n * num) * burstsMean S (flipKernel G W r) n σ mx num (isIn T') a.mapping.get? ≤
        avg N L (fun t => endsWith T ((flipOptimizer prop cs a σ mx).shortBursts alwaysAccept (n + 1 : ℕ) num f body t)) := by
  rw [(optLaw_flips hs hcs hN hlaw σ mx).short_bursts hN f hf ⟨hs.coherent, hs.covers, hs.initial⟩ T T' hT n num body hbody L hL]
  have hpow1 : c ^ f ≤ 1 := pow_le_one₀ hc0 hc1.le
  have h := burstsMean_dominated (σ := σ) (mx := mx) (K := flipKernel G W r) (c := 1 - c ^ f) (by linarith)
    (fun m hm m' hm' => (flips_dominated hs hr hcs hN hu hlaw hc hc1 f hm hm').1) (fun m hm m' hm' => (flips_dominated hs hr hcs hN hu hlaw hc hc1 f hm hm').2.1)
    (fun m hm m' hm' => (flips_dominated hs hr hcs hN hu hlaw hc hc1 f hm hm').2.2) n (ψ := isIn T') (fun m _ => isIn_nonneg m) num a.mapping.get? hs.initial
  rw [pow_mul]
  exact h.2

theorem flip_posStep (hs : FlipSetting G W a S) (hr : Rates G W S r) {m m' : V → Option P} (hm : m ∈ S) : PosStep S (flipKernel G W r) m m' ↔ FlipMove G W m m' := by
  unfold PosStep
  constructor
  · rintro ⟨-, -, h⟩
    by_contra hno
    unfold flipKernel at h
    rw [flipRate_none hno, zero_div] at h
    exact lt_irrefl _ h
  · intro h
    refine ⟨hm, hs.closed hm h, ?_⟩
    obtain ⟨⟨v, w⟩, hx, rfl⟩ := h
    unfold flipKernel
    rw [flipRate_move hs.wf hx]
    exact div_pos (hr.pos m hm v w hx) (flipWeight_pos hs hr hm)

theorem flip_isChain (hs : FlipSetting G W a S) (hr : Rates G W S r) (l : List (V → Option P)) {m : V → Option P} (hm : m ∈ S) :
    List.IsChain (PosStep S (flipKernel G W r)) (m :: l) ↔ List.IsChain (FlipMove G W) (m :: l) := by
  induction l generalizing m with
  | nil => exact ⟨fun _ => .singleton m, fun _ => .singleton m⟩
  | cons z l ih =>
    rw [List.isChain_cons_cons, List.isChain_cons_cons, flip_posStep hs hr hm]
    exact and_congr_right (fun h => ih (hs.closed hm h))

theorem flip_burstTo (hs : FlipSetting G W a S) (hr : Rates G W S r) (n : ℕ) {m m' : V → Option P} (hm : m ∈ S) :
    BurstTo (PosStep S (flipKernel G W r)) n σ mx m m' ↔ BurstTo (FlipMove G W) n σ mx m m' := by
  unfold BurstTo
  exact exists_congr (fun l => and_congr_left (fun _ => flip_isChain hs hr l hm))

theorem flipPath_mem (hs : FlipSetting G W a S) {l : List (V → Option P)} {m : V → Option P} (hm : m ∈ S) (h : List.IsChain (FlipMove G W) (m :: l)) : ∀ y ∈ l, y ∈ S := by
  induction l generalizing m with
  | nil => simp
  | cons z l ih =>
    obtain ⟨h1, h2⟩ := List.isChain_cons_cons.1 h
    intro y hy
    rcases List.mem_cons.1 hy with rfl | hy
    · exact hs.closed hm h1
    · exact ih (hs.closed hm h1) h2 y hy

theorem burst_mem (hs : FlipSetting G W a S) {n : ℕ} {m m' : V → Option P} (hm : m ∈ S) (h : BurstTo (FlipMove G W) n σ mx m m') : m' ∈ S := by
  obtain ⟨l, h1, -, rfl⟩ := h
  exact lastBest_mem hm (flipPath_mem hs hm h1)

theorem flip_burstReach (hs : FlipSetting G W a S) (hr : Rates G W S r) (n : ℕ) {m m' : V → Option P} (hm : m ∈ S) :
    (Relation.ReflTransGen (BurstTo (PosStep S (flipKernel G W r)) n σ mx) m m' ↔ Relation.ReflTransGen (BurstTo (FlipMove G W) n σ mx) m m') ∧
      (Relation.ReflTransGen (BurstTo (FlipMove G W) n σ mx) m m' → m' ∈ S) := by
  have hmem : ∀ m', Relation.ReflTransGen (BurstTo (FlipMove G W) n σ mx) m m' → m' ∈ S := by
    intro m' h
    induction h with
    | refl => exact hm
    | tail _ h ih => exact burst_mem hs ih h
  refine ⟨⟨fun h => ?_, fun h => ?_⟩, hmem m'⟩
  · induction h with
    | refl => exact .refl
    | tail _ h ih => exact ih.tail ((flip_burstTo hs hr n (hmem _ ih)).1 h)
  · induction h with
    | refl => exact .refl
    | tail h1 h ih => exact ih.tail ((flip_burstTo hs hr n (hmem _ h1)).2 h)

/-- bursts can find an optimum from every best plan they can get to -/
def CanFind (G : Graph V) (W : (V → Option P) → Bool) (S : Finset (V → Option P)) (σ : (V → Option P) → A) (mx : Bool) (n : ℕ) (m0 : V → Option P) : Prop :=
  ∀ m, Relation.ReflTransGen (BurstTo (FlipMove G W) n σ mx) m0 m → ∃ m', IsOptimal S σ mx m' ∧ Relation.ReflTransGen (BurstTo (FlipMove G W) n σ mx) m m'

theorem canFind_iff (hs : FlipSetting G W a S) (hr : Rates G W S r) (n : ℕ) : CanFind G W S σ mx n a.mapping.get? ↔
    ∀ δ : ℚ, 0 < δ → ∃ k0 : ℕ, ∀ k, k0 ≤ k → 1 - δ ≤ burstsMean S (flipKernel G W r) n σ mx k (isIn (IsOptimal S σ mx)) a.mapping.get? := by
  rw [← bursts_find_iff (flipKernel_isKernel hs hr) n hs.initial]
  unfold CanFind
  refine forall_congr' (fun m => ?_)
  rw [(flip_burstReach hs hr n hs.initial).1]
  refine imp_congr_right (fun h => exists_congr (fun m' => and_congr_right (fun _ => ?_)))
  rw [(flip_burstReach hs hr n ((flip_burstReach hs hr n hs.initial).2 h)).1]

/-- long bursts can -/
theorem canFind_long (hs : FlipSetting G W a S) {n : ℕ} (hn : S.card ≤ n + 1) : CanFind G W S σ mx n a.mapping.get? := by
  intro m h
  have hm : m ∈ S := (flip_burstReach hs (slow_rates (W := W)) n hs.initial).2 h
  obtain ⟨o, ho, hopt⟩ : ∃ o ∈ S, IsOptimal S σ mx o := by
    cases mx with
    | true =>
      obtain ⟨o, ho, h⟩ := S.exists_max_image σ ⟨_, hs.initial⟩
      exact ⟨o, ho, fun z hz => by simpa [isImprovement] using h z hz⟩
    | false =>
      obtain ⟨o, ho, h⟩ := S.exists_min_image σ ⟨_, hs.initial⟩
      exact ⟨o, ho, fun z hz => by simpa [isImprovement] using h z hz⟩
  obtain ⟨l, h1, h2, h3⟩ := (stepsTo_card (fun x hx z hz => hs.closed hx hz) ho hm (hs.reach hm ho) hn).path
  obtain ⟨y, hy1, hy2⟩ := burst_reaches (flipKernel_isKernel hs (slow_rates (W := W))) hm
    ⟨l, o, (flip_isChain hs slow_rates l hm).2 h1, h2, h3, hopt⟩
  exact ⟨y, hy1, .single ((flip_burstTo hs slow_rates n hm).1 hy2)⟩

/-- If all plans within reach of a burst are worse, the best plan never changes. -/
theorem burstsMean_stuck (hs : FlipSetting G W a S) (hr : Rates G W S r) {n : ℕ}
    (hstuck : ∀ l, List.IsChain (FlipMove G W) (a.mapping.get? :: l) → l.length = n → ∀ m ∈ l, m ≠ a.mapping.get? → ¬ isImprovement mx (σ m) (σ a.mapping.get?) = true)
    (num : ℕ) : burstsMean S (flipKernel G W r) n σ mx num (isIn (fun m => m ≠ a.mapping.get?)) a.mapping.get? = 0 := by
  have hto : ∀ m', BurstTo (FlipMove G W) n σ mx a.mapping.get? m' → m' = a.mapping.get? := by
    rintro m' ⟨l, h1, h2, rfl⟩
    by_contra hne
    obtain ⟨g1, g2⟩ := lastBest_spec (σ := σ) (mx := mx) a.mapping.get? l
    rcases List.mem_cons.1 g1 with h | h
    · exact hne h
    · exact hstuck l h1 h2 _ h hne (g2 _ List.mem_cons_self)
  rw [burstsMean_eq n num _ _ hs.initial]
  have hK := burstKernel_isKernel (σ := σ) (mx := mx) (flipKernel_isKernel hs hr) n
  induction num with
  | zero => show isIn _ _ = 0; unfold isIn; rw [if_neg (by simp)]
  | succ num ih =>
    show ∑ y ∈ S, burstKernel S (flipKernel G W r) n σ mx a.mapping.get? y * after S (burstKernel S (flipKernel G W r) n σ mx) num _ y = 0
    refine Finset.sum_eq_zero (fun y hy => ?_)
    by_cases hya : y = a.mapping.get?
    · rw [hya, ih, mul_zero]
    · have : ¬ 0 < burstKernel S (flipKernel G W r) n σ mx a.mapping.get? y := fun hpos =>
        hya (hto y ((flip_burstTo hs hr n hs.initial).1 ((burstKernel_pos (flipKernel_isKernel hs hr) hs.initial).1 hpos)))
      rw [le_antisymm (not_lt.1 this) (hK.nonneg _ hs.initial y hy), zero_mul]

/-- the score found is optimal -/
def FoundBest (S : Finset (V → Option P)) (σ : (V → Option P) → A) (mx : Bool) (b : PlanState V P × A) : Prop := ∀ m ∈ S, isImprovement mx b.2 (σ m) = true

instance (S : Finset (V → Option P)) (σ : (V → Option P) → A) (mx : Bool) : DecidablePred (FoundBest S σ mx) := fun b => by unfold FoundBest; infer_instance

theorem foundBest_iff (b : PlanState V P × A) (h : b.2 = σ b.1.plan.mapping.get?) : FoundBest S σ mx b ↔ IsOptimal S σ mx b.1.plan.mapping.get? := by
  unfold FoundBest IsOptimal
  rw [h]

theorem flip_find (hs : FlipSetting G W a S) (hr : Rates G W S r) (hu : ∀ m ∈ S, 0 < u m) {n : ℕ} (hcan : CanFind G W S σ mx n a.mapping.get?) {δ : ℚ} (hδ : 0 < δ) :
    ∃ num0 : ℕ, ∀ num, num0 ≤ num → ∃ f0 : ℕ, ∀ f, f0 ≤ f → ∀ (N : ℕ) (prop : PlanState V P → M Tape (PlanState V P)), 0 < N →
      (∀ x : PlanState V P, InClass G S x → FlipLaw N d G prop x (u x.plan.mapping.get?) (r x.plan.mapping.get?)) → ∀ cs, Decides W cs →
      ∀ body L, n + 1 < body → num * (n * (f * d)) ≤ L →
        1 - δ ≤ avg N L (fun t => endsWith (FoundBest S σ mx) ((flipOptimizer prop cs a σ mx).shortBursts alwaysAccept (n + 1 : ℕ) num f body t)) := by
  obtain ⟨c, hc0, hc1, hc⟩ := exists_refusal_bound hs hr hu
  obtain ⟨num0, h0⟩ := (canFind_iff hs hr n).1 hcan (min (δ / 2) 1) (lt_min (by linarith) one_pos)
  refine ⟨num0, fun num hnum => ?_⟩
  obtain ⟨f0, hf0⟩ := enough_tries hc0 hc1 (n * num) (show 0 < min (δ / 2) 1 from lt_min (by linarith) one_pos)
  refine ⟨f0 + 1, fun f hf N prop hN hlaw cs hcs body L hbody hL => ?_⟩
  have h1 := (flip_bursts hs hr hcs hN hu hlaw hc0 hc hc1 (FoundBest S σ mx) (IsOptimal S σ mx) (fun b _ hb => foundBest_iff b hb) n num f body (by omega) hbody L hL
    (mx := mx)).2
  have h2 := h0 num hnum
  have h3 := hf0 f (by omega)
  have h4 : min (δ / 2) 1 ≤ δ / 2 := min_le_left _ _
  have h5 : min (δ / 2) 1 ≤ 1 := min_le_right _ _
  have h6 := mul_le_mul h3 h2 (by linarith) (le_trans (by linarith) h3)
  have h7 : 0 ≤ min (δ / 2) 1 * min (δ / 2) 1 := mul_self_nonneg _
  nlinarith

end generic

/-! ### The theorems -/

theorem exists_slow_randomness [DecidableEq (V → Option P)] {G : Graph V} {W : (V → Option P) → Bool} {a : Assignment V P} {S : Finset (V → Option P)} (hs : FlipSetting G W a S) :
    ∃ N, 0 < N ∧ ∀ m ∈ S, (allowedMoves G m (fun _ => true)).card ∣ N := by
  refine ⟨∏ m ∈ S, (allowedMoves G m (fun _ => true)).card, Finset.prod_pos (fun m hm => ?_), fun m hm => Finset.dvd_prod_of_mem _ hm⟩
  obtain ⟨⟨v, u⟩, hx⟩ := hs.has_move hm
  have hx' : (v, u) ∈ allowedPairs G m (fun _ => true) := Finset.mem_filter.2 ⟨(Finset.mem_filter.1 hx).1, rfl⟩
  exact Finset.card_pos.2 ⟨(v, m u), Finset.mem_image_of_mem (fun x => (x.1, m x.2)) hx'⟩

theorem exists_bi_randomness [DecidableEq (V → Option P)] {G : Graph V} {W : (V → Option P) → Bool} {a : Assignment V P} {S : Finset (V → Option P)} (hs : FlipSetting G W a S) :
    ∃ N, 0 < N ∧ ∀ m ∈ S, Divides N G m := by
  let K : ℕ := ∑ m ∈ S, ((boundaryNodes G m).card + ∑ v ∈ boundaryNodes G m, (otherParts G m v).card)
  have hle : ∀ m ∈ S, (boundaryNodes G m).card + ∑ v ∈ boundaryNodes G m, (otherParts G m v).card ≤ K := fun m hm =>
    Finset.single_le_sum (f := fun m => (boundaryNodes G m).card + ∑ v ∈ boundaryNodes G m, (otherParts G m v).card) (fun _ _ => Nat.zero_le _) hm
  refine ⟨K.factorial, K.factorial_pos, fun m hm => ⟨?_, fun v hv => ?_⟩⟩
  · obtain ⟨⟨v, w⟩, hvw⟩ := hs.has_move hm
    refine Nat.dvd_factorial (Finset.card_pos.2 ⟨v, Finset.mem_image_of_mem Prod.fst (Finset.mem_filter.1 hvw).1⟩) ?_
    have := hle m hm
    omega
  · have h1 : (otherParts G m v).card ≤ ∑ v ∈ boundaryNodes G m, (otherParts G m v).card :=
      Finset.single_le_sum (f := fun v => (otherParts G m v).card) (fun _ _ => Nat.zero_le _) hv
    obtain ⟨u, hu1, hu2⟩ := (mem_boundaryNodes hs.wf).1 hv
    refine Nat.dvd_factorial (Finset.card_pos.2 ⟨m u, Finset.mem_erase.2 ⟨Ne.symm hu2, Finset.mem_image_of_mem m ((Graph.mem_neighbors hs.wf).2 hu1)⟩⟩) ?_
    have := hle m hm
    omega

section theorems
variable (G : Graph V) (W : (V → Option P) → Bool) (a : Assignment V P) (S : Finset (V → Option P)) (σ : (V → Option P) → A) (mx : Bool) [DecidableEq (V → Option P)]

/-- **C109** (the law, `slow_reversible_propose`) With at most `f` proposals in each step the probability that `short_bursts` ends without an exception and with a
best plan in `T` is at most that of the Markov chain of the best plans, in which a burst is a path of `n` steps, each to a plan one allowed move away, all equally
likely, and leads to the last of the best plans on it; and at least `(1 - c ^ f) ^ (n * num)` times it. -/
theorem C109_slow_law (hs : FlipSetting G W a S) :
    ∃ c : ℚ, 0 ≤ c ∧ c < 1 ∧ ∀ N, 0 < N → (∀ m ∈ S, (allowedMoves G m (fun _ => true)).card ∣ N) → ∀ cs, Decides W cs →
      ∀ (T : (V → Option P) → Prop) [DecidablePred T] (n num f body L : ℕ), 0 < f → n + 1 < body → num * (n * f) ≤ L →
        avg N L (fun t => endsWith (fun b => T b.1.plan.mapping.get?) ((flipOptimizer (slowMove N G) cs a σ mx).shortBursts alwaysAccept (n + 1 : ℕ) num f body t)) ≤
          burstsMean S (flipKernel G W (fun _ _ => 1)) n σ mx num (isIn T) a.mapping.get? ∧
        (1 - c ^ f) ^ (n * num) * burstsMean S (flipKernel G W (fun _ _ => 1)) n σ mx num (isIn T) a.mapping.get? ≤
          avg N L (fun t => endsWith (fun b => T b.1.plan.mapping.get?) ((flipOptimizer (slowMove N G) cs a σ mx).shortBursts alwaysAccept (n + 1 : ℕ) num f body t)) := by
  obtain ⟨c, hc0, hc1, hc⟩ := exists_refusal_bound hs slow_rates (slow_pos hs)
  refine ⟨c, hc0, hc1, ?_⟩
  intro N hN hd cs hcs T _ n num f body L hf hbody hL
  exact flip_bursts hs slow_rates hcs hN (slow_pos hs) (fun x hx => slow_flipLaw hs hN hd hx) hc0 hc hc1 _ T (fun _ _ _ => Iff.rfl) n num f body hf hbody L (by rwa [mul_one])

/-- **C109** (when they find it, `slow_reversible_propose`) With enough bursts `short_bursts` finds an optimal score with a probability as close to 1 as wanted, if
and only if from every best plan that bursts can get to they can find an optimal one. -/
theorem C109_slow_find_iff (hs : FlipSetting G W a S) (n : ℕ) : CanFind G W S σ mx n a.mapping.get? ↔
    ∀ δ : ℚ, 0 < δ → ∃ num0 : ℕ, ∀ num, num0 ≤ num → ∃ f0 : ℕ, ∀ f, f0 ≤ f → ∀ N, 0 < N → (∀ m ∈ S, (allowedMoves G m (fun _ => true)).card ∣ N) → ∀ cs, Decides W cs →
      ∀ body L, n + 1 < body → num * (n * f) ≤ L →
        1 - δ ≤ avg N L (fun t => endsWith (FoundBest S σ mx) ((flipOptimizer (slowMove N G) cs a σ mx).shortBursts alwaysAccept (n + 1 : ℕ) num f body t)) := by
  constructor
  · intro hcan δ hδ
    obtain ⟨num0, h0⟩ := flip_find (d := 1) hs slow_rates (slow_pos hs) hcan hδ
    refine ⟨num0, fun num hnum => ?_⟩
    obtain ⟨f0, hf0⟩ := h0 num hnum
    exact ⟨f0, fun f hf N hN hd cs hcs body L hbody hL => hf0 f hf N (slowMove N G) hN (fun x hx => slow_flipLaw hs hN hd hx) cs hcs body L hbody (by rwa [mul_one])⟩
  · intro h
    refine (canFind_iff hs slow_rates n).2 (fun δ hδ => ?_)
    obtain ⟨num0, h0⟩ := h δ hδ
    refine ⟨num0, fun num hnum => ?_⟩
    obtain ⟨f0, hf0⟩ := h0 num hnum
    obtain ⟨N, hN, hd⟩ := exists_slow_randomness hs
    obtain ⟨c, hc0, hc1, hc⟩ := exists_refusal_bound hs slow_rates (slow_pos hs)
    refine (hf0 (f0 + 1) (by omega) N hN hd _ (chainAt_decides a W) (n + 2) (num * (n * (f0 + 1))) (by omega) le_rfl).trans ?_
    exact (flip_bursts hs slow_rates (chainAt_decides a W) hN (slow_pos hs) (fun x hx => slow_flipLaw hs hN hd hx) hc0 hc hc1 (FoundBest S σ mx) (IsOptimal S σ mx)
      (fun b _ hb => foundBest_iff b hb) n num (f0 + 1) (n + 2) (by omega) (by omega) _ (by rw [mul_one])).1

/-- **C109** (long bursts, `slow_reversible_propose`) A `burst_length` of at least the number of plans that can be reached is enough. -/
theorem C109_slow_long (hs : FlipSetting G W a S) (n : ℕ) (hn : S.card ≤ n + 1) (δ : ℚ) (hδ : 0 < δ) :
    ∃ num0 : ℕ, ∀ num, num0 ≤ num → ∃ f0 : ℕ, ∀ f, f0 ≤ f → ∀ N, 0 < N → (∀ m ∈ S, (allowedMoves G m (fun _ => true)).card ∣ N) → ∀ cs, Decides W cs →
      ∀ body L, n + 1 < body → num * (n * f) ≤ L →
        1 - δ ≤ avg N L (fun t => endsWith (FoundBest S σ mx) ((flipOptimizer (slowMove N G) cs a σ mx).shortBursts alwaysAccept (n + 1 : ℕ) num f body t)) :=
  (C109_slow_find_iff G W a S σ mx hs n).1 (canFind_long hs hn) δ hδ

/-- **C109** (the trap, `slow_reversible_propose`) If all other plans within `burst_length - 1` allowed moves of the initial plan have a worse score, `short_bursts`
never finds another one, with any number of bursts. -/
theorem C109_slow_trap (hs : FlipSetting G W a S) (n : ℕ)
    (hstuck : ∀ l, List.IsChain (FlipMove G W) (a.mapping.get? :: l) → l.length = n → ∀ m ∈ l, m ≠ a.mapping.get? → ¬ isImprovement mx (σ m) (σ a.mapping.get?) = true)
    (N : ℕ) (hN : 0 < N) (hd : ∀ m ∈ S, (allowedMoves G m (fun _ => true)).card ∣ N) (cs : List (Constraint Tape (PlanState V P))) (hcs : Decides W cs)
    (num f body L : ℕ) (hf : 0 < f) (hbody : n + 1 < body) (hL : num * (n * f) ≤ L) :
    avg N L (fun t => endsWith (fun b => b.1.plan.mapping.get? ≠ a.mapping.get?)
      ((flipOptimizer (slowMove N G) cs a σ mx).shortBursts alwaysAccept (n + 1 : ℕ) num f body t)) = 0 := by
  obtain ⟨c, hc0, hc1, h⟩ := C109_slow_law G W a S σ mx hs
  obtain ⟨h1, h2⟩ := h N hN hd cs hcs (fun m => m ≠ a.mapping.get?) n num f body L hf hbody hL
  rw [burstsMean_stuck hs slow_rates hstuck num] at h1 h2
  rw [mul_zero] at h2
  exact le_antisymm h1 h2

/-- **C109** (the law, `slow_reversible_propose_bi`) The same as `C109_slow_law`, with the transition probabilities of that proposal. -/
theorem C109_bi_law (hs : FlipSetting G W a S) (han : ∀ m ∈ S, Anchored G m) :
    ∃ c : ℚ, 0 ≤ c ∧ c < 1 ∧ ∀ N, 0 < N → (∀ m ∈ S, Divides N G m) → ∀ cs, Decides W cs →
      ∀ (T : (V → Option P) → Prop) [DecidablePred T] (n num f body L : ℕ), 0 < f → n + 1 < body → num * (n * (f * 2)) ≤ L →
        avg N L (fun t => endsWith (fun b => T b.1.plan.mapping.get?) ((flipOptimizer (biMove N G) cs a σ mx).shortBursts alwaysAccept (n + 1 : ℕ) num f body t)) ≤
          burstsMean S (flipKernel G W (biRate G)) n σ mx num (isIn T) a.mapping.get? ∧
        (1 - c ^ f) ^ (n * num) * burstsMean S (flipKernel G W (biRate G)) n σ mx num (isIn T) a.mapping.get? ≤
          avg N L (fun t => endsWith (fun b => T b.1.plan.mapping.get?) ((flipOptimizer (biMove N G) cs a σ mx).shortBursts alwaysAccept (n + 1 : ℕ) num f body t)) := by
  obtain ⟨c, hc0, hc1, hc⟩ := exists_refusal_bound hs (bi_rates hs) (bi_pos hs)
  refine ⟨c, hc0, hc1, ?_⟩
  intro N hN hd cs hcs T _ n num f body L hf hbody hL
  exact flip_bursts hs (bi_rates hs) hcs hN (bi_pos hs) (fun x hx => bi_flipLaw hs hN hd han hx) hc0 hc hc1 _ T (fun _ _ _ => Iff.rfl) n num f body hf hbody L hL

/-- **C109** (when they find it, `slow_reversible_propose_bi`) The same as `C109_slow_find_iff`. -/
theorem C109_bi_find_iff (hs : FlipSetting G W a S) (han : ∀ m ∈ S, Anchored G m) (n : ℕ) : CanFind G W S σ mx n a.mapping.get? ↔
    ∀ δ : ℚ, 0 < δ → ∃ num0 : ℕ, ∀ num, num0 ≤ num → ∃ f0 : ℕ, ∀ f, f0 ≤ f → ∀ N, 0 < N → (∀ m ∈ S, Divides N G m) → ∀ cs, Decides W cs →
      ∀ body L, n + 1 < body → num * (n * (f * 2)) ≤ L →
        1 - δ ≤ avg N L (fun t => endsWith (FoundBest S σ mx) ((flipOptimizer (biMove N G) cs a σ mx).shortBursts alwaysAccept (n + 1 : ℕ) num f body t)) := by
  constructor
  · intro hcan δ hδ
    obtain ⟨num0, h0⟩ := flip_find (d := 2) hs (bi_rates hs) (bi_pos hs) hcan hδ
    refine ⟨num0, fun num hnum => ?_⟩
    obtain ⟨f0, hf0⟩ := h0 num hnum
    exact ⟨f0, fun f hf N hN hd cs hcs body L hbody hL => hf0 f hf N (biMove N G) hN (fun x hx => bi_flipLaw hs hN hd han hx) cs hcs body L hbody hL⟩
  · intro h
    refine (canFind_iff hs (bi_rates hs) n).2 (fun δ hδ => ?_)
    obtain ⟨num0, h0⟩ := h δ hδ
    refine ⟨num0, fun num hnum => ?_⟩
    obtain ⟨f0, hf0⟩ := h0 num hnum
    obtain ⟨N, hN, hd⟩ := exists_bi_randomness hs
    obtain ⟨c, hc0, hc1, hc⟩ := exists_refusal_bound hs (bi_rates hs) (bi_pos hs)
    refine (hf0 (f0 + 1) (by omega) N hN hd _ (chainAt_decides a W) (n + 2) (num * (n * ((f0 + 1) * 2))) (by omega) le_rfl).trans ?_
    exact (flip_bursts hs (bi_rates hs) (chainAt_decides a W) hN (bi_pos hs) (fun x hx => bi_flipLaw hs hN hd han hx) hc0 hc hc1 (FoundBest S σ mx) (IsOptimal S σ mx)
      (fun b _ hb => foundBest_iff b hb) n num (f0 + 1) (n + 2) (by omega) (by omega) _ le_rfl).1

/-- **C109** (long bursts, `slow_reversible_propose_bi`) -/
theorem C109_bi_long (hs : FlipSetting G W a S) (han : ∀ m ∈ S, Anchored G m) (n : ℕ) (hn : S.card ≤ n + 1) (δ : ℚ) (hδ : 0 < δ) :
    ∃ num0 : ℕ, ∀ num, num0 ≤ num → ∃ f0 : ℕ, ∀ f, f0 ≤ f → ∀ N, 0 < N → (∀ m ∈ S, Divides N G m) → ∀ cs, Decides W cs →
      ∀ body L, n + 1 < body → num * (n * (f * 2)) ≤ L →
        1 - δ ≤ avg N L (fun t => endsWith (FoundBest S σ mx) ((flipOptimizer (biMove N G) cs a σ mx).shortBursts alwaysAccept (n + 1 : ℕ) num f body t)) :=
  (C109_bi_find_iff G W a S σ mx hs han n).1 (canFind_long hs hn) δ hδ

/-- **C109** (the trap, `slow_reversible_propose_bi`) -/
theorem C109_bi_trap (hs : FlipSetting G W a S) (han : ∀ m ∈ S, Anchored G m) (n : ℕ)
    (hstuck : ∀ l, List.IsChain (FlipMove G W) (a.mapping.get? :: l) → l.length = n → ∀ m ∈ l, m ≠ a.mapping.get? → ¬ isImprovement mx (σ m) (σ a.mapping.get?) = true)
    (N : ℕ) (hN : 0 < N) (hd : ∀ m ∈ S, Divides N G m) (cs : List (Constraint Tape (PlanState V P))) (hcs : Decides W cs)
    (num f body L : ℕ) (hf : 0 < f) (hbody : n + 1 < body) (hL : num * (n * (f * 2)) ≤ L) :
    avg N L (fun t => endsWith (fun b => b.1.plan.mapping.get? ≠ a.mapping.get?)
      ((flipOptimizer (biMove N G) cs a σ mx).shortBursts alwaysAccept (n + 1 : ℕ) num f body t)) = 0 := by
  obtain ⟨c, hc0, hc1, h⟩ := C109_bi_law G W a S σ mx hs han
  obtain ⟨h1, h2⟩ := h N hN hd cs hcs (fun m => m ≠ a.mapping.get?) n num f body L hf hbody hL
  rw [burstsMean_stuck hs (bi_rates hs) hstuck num] at h1 h2
  rw [mul_zero] at h2
  exact le_antisymm h1 h2

end theorems

/-! ### Examples -/

/-- another initial plan -/
theorem FlipSetting.restart {G : Graph V} {W : (V → Option P) → Bool} {a b : Assignment V P} {S : Finset (V → Option P)} (hs : FlipSetting G W a S) (hb : InClass G S ⟨b, none⟩) :
    FlipSetting G W b S where
  wf := hs.wf
  coherent := hb.1
  covers := hb.2.1
  valid := hs.all_valid hb.2.2
  mem := fun m => ⟨fun hm => hs.reach hb.2.2 hm, fun h => (hs.mem m).2 (((hs.mem _).1 hb.2.2).trans h)⟩
  back := hs.back
  moves := hs.has_move hb.2.2

/-- the path of four nodes with the plans `0111`, `0011`, `0001`, started in the first of them -/
theorem walk_fromA : FlipSetting walkPath noneEmpty walkA walkPlans :=
  walk_flipSetting.restart ⟨walk_coherent.1, by unfold Assignment.Covers; decide, by decide +kernel⟩

/-- a score with two peaks: 1, 0, 2 -/
def twoPeaks (m : Fin 4 → Option (Fin 2)) : ℕ := match districtSize walkPath m 0 with
  | 1 => 1
  | 3 => 2
  | _ => 0

/-- bursts of three plans find the score 2 -/
example (δ : ℚ) (hδ : 0 < δ) : ∃ num0 : ℕ, ∀ num, num0 ≤ num → ∃ f0 : ℕ, ∀ f, f0 ≤ f →
    1 - δ ≤ avg 2 (num * (2 * f)) (fun t => endsWith (FoundBest walkPlans twoPeaks true)
      ((flipOptimizer (slowMove 2 walkPath) (chainAt walkA noneEmpty).isValid walkA twoPeaks true).shortBursts alwaysAccept (2 + 1 : ℕ) num f 4 t)) := by
  obtain ⟨num0, h⟩ := C109_slow_long walkPath noneEmpty walkA walkPlans twoPeaks true walk_fromA 2 (by decide +kernel) δ hδ
  refine ⟨num0, fun num hnum => ?_⟩
  obtain ⟨f0, hf0⟩ := h num hnum
  exact ⟨f0, fun f hf => hf0 f hf 2 (by decide) (by decide +kernel) _ (chainAt_decides walkA noneEmpty) 4 _ (by omega) le_rfl⟩

/-- bursts of two plans never do -/
example (num f : ℕ) (hf : 0 < f) : avg 2 (num * (1 * f)) (fun t => endsWith (fun b => b.1.plan.mapping.get? ≠ walkA.mapping.get?)
    ((flipOptimizer (slowMove 2 walkPath) (chainAt walkA noneEmpty).isValid walkA twoPeaks true).shortBursts alwaysAccept (1 + 1 : ℕ) num f 3 t)) = 0 := by
  refine C109_slow_trap walkPath noneEmpty walkA walkPlans twoPeaks true walk_fromA 1 ?_ 2 (by decide) (by decide +kernel) _ (chainAt_decides walkA noneEmpty)
    num f 3 _ hf (by omega) le_rfl
  intro l hl hlen m hm _
  rcases l with _ | ⟨z, _ | ⟨_, _⟩⟩
  · simp at hm
  · rw [List.mem_singleton.1 hm]
    obtain ⟨x, hx, rfl⟩ := (List.isChain_cons_cons.1 hl).1
    have : ∀ x ∈ allowedPairs walkPath walkA.mapping.get? noneEmpty, ¬ isImprovement true (twoPeaks (moved walkA.mapping.get? x.1 (walkA.mapping.get? x.2)))
        (twoPeaks walkA.mapping.get?) = true := by decide +kernel
    exact this x hx
  · simp at hlen

/-- two bursts of three plans: from `0111` each burst goes to `0011` and then, with probability 1/2, on to `0001` -/
example : burstsMean walkPlans (flipKernel walkPath noneEmpty (fun _ _ => 1)) 2 twoPeaks true 2 (isIn (IsOptimal walkPlans twoPeaks true)) walkA.mapping.get? = 3 / 4 := by
  decide +kernel

/-- the path of five nodes with the plans `00111` and `00011`, and the size of the first district as the score -/
example (δ : ℚ) (hδ : 0 < δ) : ∃ num0 : ℕ, ∀ num, num0 ≤ num → ∃ f0 : ℕ, ∀ f, f0 ≤ f →
    1 - δ ≤ avg 2 (num * (1 * (f * 2))) (fun t => endsWith (FoundBest {biC.mapping.get?, biD.mapping.get?} (fun m => districtSize biPath m 0) true)
      ((flipOptimizer (biMove 2 biPath) (chainAt biC twoEach).isValid biC (fun m => districtSize biPath m 0) true).shortBursts alwaysAccept (1 + 1 : ℕ) num f 3 t)) := by
  obtain ⟨num0, h⟩ := C109_bi_long biPath twoEach biC _ (fun m => districtSize biPath m 0) true bi_flipSetting (by unfold Anchored; decide +kernel) 1
    (Finset.card_le_two) δ hδ
  refine ⟨num0, fun num hnum => ?_⟩
  obtain ⟨f0, hf0⟩ := h num hnum
  exact ⟨f0, fun f hf => hf0 f hf 2 (by decide) bi_divides _ (chainAt_decides biC twoEach) 3 _ (by omega) le_rfl⟩

end GC

import Verif.Lemmas.GrowBursts
import Verif.Props.BurstRuns

/-!
# C121: when `variable_length_short_bursts` finds the best plan

`variable_length_short_bursts` (optimization/optimization.py:509-570) is meant to get out of local optima by making the bursts longer when there is no improvement.
Its bursts keep their length 2 (C67), so with `stuck_buffer ≥ 1` it does the same as `short_bursts` (376-425) with `burst_length=2`, and finds the best plan exactly if single
moves to plans that are not worse lead there.  With `stuck_buffer ≤ 0` the length doubles after every burst, and then it finds the best plan from everywhere.
-/

set_option linter.unusedSectionVars false
set_option autoImplicit false

namespace GC

/-- a step from a good state leads to a good state -/
theorem TryLaw.loop_good {R α : Type} [DecidableEq α] {N d : ℕ} {c : ChainCfg Tape R} {cs : List (Constraint Tape R)} {Good : R → Prop} {φ : R → α} {S : Finset α}
    {B : α → α → ℚ} {ρ : α → ℚ} (h : TryLaw N d c cs Good φ S B ρ) {x : R} (hx : Good x) (k : ℕ) (hk : (k : ℤ) < c.totalSteps) (k0 : Option ℕ) :
    ∀ f t y ch' t', Chain.loop c ⟨cs, k0, x⟩ k f t = some (.ok y, ch', t') → Good y := by
  intro f
  induction f with
  | zero => intro t y ch' t' he; simp [Chain.loop] at he
  | succ f ih =>
    intro t y ch' t' he
    rw [loop_oneTry c h.erase _ k f hk t] at he
    have hr := h.good x hx t
    rcases ho : oneTry c cs x t with ⟨_ | _ | z, s⟩
    · simp only [ho] at he
      simp [afterTry] at he
    · simp only [ho] at he
      exact ih s y ch' t' he
    · simp only [ho] at he hr
      simp only [afterTry, Option.some.injEq, Prod.mk.injEq, Except.ok.injEq] at he
      exact hr y (by rw [he.1])

theorem OptLaw.stepsOn {R α A : Type} [LinearOrder A] [DecidableEq α] {N d : ℕ} {o : OptCfg Tape R A} {accept : R → M Tape Bool} {Good : R → Prop} {φ : R → α} {S : Finset α}
    {B : α → α → ℚ} {ρ : α → ℚ} {σ : α → A} (h : OptLaw N d o accept Good φ S B ρ σ) (fuel : ℕ) : StepsOn o accept fuel Good where
  stop := fun x hx s ch' s' => (h.tries x (2 : ℕ)).no_stop hx 1 (by simp [OptCfg.chain]) (some 1) fuel s ch' s'
  good := fun x hx s y ch' s' => (h.tries x (2 : ℕ)).loop_good hx 1 (by simp [OptCfg.chain]) (some 1) fuel s y ch' s'

theorem OptLaw.stepsAll {R α A : Type} [LinearOrder A] [DecidableEq α] {N d : ℕ} {o : OptCfg Tape R A} {accept : R → M Tape Bool} {Good : R → Prop} {φ : R → α} {S : Finset α}
    {B : α → α → ℚ} {ρ : α → ℚ} {σ : α → A} (h : OptLaw N d o accept Good φ S B ρ σ) (fuel : ℕ) : StepsAll o accept fuel Good where
  stop := fun x0 steps x k hx hk s ch' s' => (h.tries x0 steps).no_stop hx k hk (some k) fuel s ch' s'
  good := fun x0 steps x k hx hk s y ch' s' => (h.tries x0 steps).loop_good hx k hk (some k) fuel s y ch' s'

/-- **C121** (the same run) For every optimizer whose score is a function of the state and whose callables do not raise `StopIteration`, with every acceptance function
and every `stuck_buffer ≥ 1`: `variable_length_short_bursts` with `2 * num` steps is `short_bursts` with `burst_length=2` and `num_bursts=num` — the same states are handed
out, the same best partition is known after each of them, the same random numbers are drawn, and it ends in the same way. -/
theorem C121_same_run {S R A : Type} [LinearOrder A] (o : OptCfg S R A) (accept : R → M S Bool) (f : R → A) (hns : NoStop (o.chain accept o.initial 2) o.constraints)
    (hdet : ∀ r s a s', o.score r s = (.ok a, s') → a = f r) (stuckBuffer : ℤ) (hsb : 1 ≤ stuckBuffer) (num fuel body bursts : ℕ) (hfuel : 0 < fuel) (hbody : 2 < body)
    (hbursts : num < bursts) (s : S) :
    o.variableLength accept (2 * num : ℕ) stuckBuffer fuel body bursts s = o.shortBursts accept (2 : ℕ) num fuel body s := by
  obtain ⟨fuel, rfl⟩ : ∃ m, fuel = m + 1 := ⟨fuel - 1, by omega⟩
  obtain ⟨body, rfl⟩ : ∃ m, body = m + 3 := ⟨body - 3, by omega⟩
  unfold OptCfg.variableLength OptCfg.shortBursts
  rcases hs : o.score o.initial s with ⟨e | a, s1⟩
  · rfl
  · simp only
    rw [varBursts_even (stepsOn_noStop hns (fuel + 1)) hdet body hsb num bursts hbursts trivial (hdet _ _ _ _ hs)]

variable {V P : Type} [LinearOrder V] [LinearOrder P] {A : Type} [LinearOrder A]

/-- a single allowed move to a plan whose score is at least as good -/
def Climb (G : Graph V) (W : (V → Option P) → Bool) (σ : (V → Option P) → A) (mx : Bool) (m m' : V → Option P) : Prop :=
  FlipMove G W m m' ∧ isImprovement mx (σ m') (σ m) = true

section generic
variable [DecidableEq (V → Option P)] {G : Graph V} {W : (V → Option P) → Bool} {a : Assignment V P} {S : Finset (V → Option P)} {N d : ℕ}
  {prop : PlanState V P → M Tape (PlanState V P)} {cs : List (Constraint Tape (PlanState V P))} {r : (V → Option P) → V → ℚ} {u : (V → Option P) → ℚ}
  {σ : (V → Option P) → A} {mx : Bool}

theorem climb_iff {m m' : V → Option P} :
    Relation.ReflTransGen (BurstTo (FlipMove G W) 1 σ mx) m m' ↔ Relation.ReflTransGen (Climb G W σ mx) m m' := by
  constructor
  · intro h
    induction h with
    | refl => exact .refl
    | tail _ h ih =>
      obtain ⟨l, h1, h2, rfl⟩ := h
      obtain ⟨z, rfl⟩ := List.length_eq_one_iff.1 h2
      show Relation.ReflTransGen _ _ (if _ then _ else _)
      split_ifs with hz
      · exact ih.tail ⟨(List.isChain_cons_cons.1 h1).1, hz⟩
      · exact ih
  · intro h
    induction h with
    | refl => exact .refl
    | @tail b c _ h ih =>
      refine ih.tail ⟨[c], .cons_cons h.1 (.singleton _), rfl, ?_⟩
      show (if _ then _ else _) = _
      rw [if_pos h.2]

theorem canFind_climb {m0 : V → Option P} : CanFind G W S σ mx 1 m0 ↔
    ∀ m, Relation.ReflTransGen (Climb G W σ mx) m0 m → ∃ m', IsOptimal S σ mx m' ∧ Relation.ReflTransGen (Climb G W σ mx) m m' := by
  unfold CanFind
  simp only [climb_iff]

/-- the best plan at the end of a run of `k` steps -/
theorem flip_varBursts (hs : FlipSetting G W a S) (hcs : Decides W cs) (hN : 0 < N)
    (hlaw : ∀ x : PlanState V P, InClass G S x → FlipLaw N d G prop x (u x.plan.mapping.get?) (r x.plan.mapping.get?)) (T : PlanState V P × A → Prop) [DecidablePred T]
    {stuckBuffer : ℤ} (hsb : 1 ≤ stuckBuffer) (k fuel body bursts : ℕ) (hfuel : 0 < fuel) (hbody : 2 < body) (hbursts : k < bursts) (t : Tape) :
    endsWith T ((flipOptimizer prop cs a σ mx).variableLength alwaysAccept (k : ℕ) stuckBuffer fuel body bursts t) =
      endsWith T ((flipOptimizer prop cs a σ mx).shortBursts alwaysAccept (1 + 1 : ℕ) (k / 2) fuel body t) := by
  obtain ⟨fuel, rfl⟩ : ∃ m, fuel = m + 1 := ⟨fuel - 1, by omega⟩
  obtain ⟨body, rfl⟩ : ∃ m, body = m + 3 := ⟨body - 3, by omega⟩
  have hO := optLaw_flips (a := a) hs hcs hN hlaw σ mx
  have hg := hO.stepsOn (fuel + 1)
  have hdet : ∀ (r : PlanState V P) (s : Tape) a' s', (flipOptimizer prop cs a σ mx).score r s = (.ok a', s') → a' = σ r.plan.mapping.get? := by
    intro r s a' s' h
    simp only [flipOptimizer, Prod.mk.injEq, Except.ok.injEq] at h
    exact h.1.symm
  have hgood : InClass G S (⟨a, none⟩ : PlanState V P) := ⟨hs.coherent, hs.covers, hs.initial⟩
  unfold OptCfg.variableLength OptCfg.shortBursts
  rw [hO.score (flipOptimizer prop cs a σ mx).initial hgood t]
  simp only [endsWith]
  rcases Nat.even_or_odd' k with ⟨num, hk | hk⟩
  · rw [show k / 2 = num by omega, hk,
      varBursts_even hg hdet body hsb num bursts (by omega) (b := ((flipOptimizer prop cs a σ mx).initial, σ (flipOptimizer prop cs a σ mx).initial.plan.mapping.get?)) hgood rfl t]
  · rw [show k / 2 = num by omega, hk,
      varBursts_odd hg hdet body (fun x hx s => ⟨hO.score x hx s, hO.consumer x hx s, hO.valid x hx s⟩) hsb num bursts (by omega)
        (b := ((flipOptimizer prop cs a σ mx).initial, σ (flipOptimizer prop cs a σ mx).initial.plan.mapping.get?)) hgood rfl t]
    split_ifs with h
    · unfold runThen
      have h' : ((flipOptimizer prop cs a σ mx).bursts alwaysAccept ((1 + 1 : ℕ) : ℤ) (fuel + 1) (body + 3) num
        ((flipOptimizer prop cs a σ mx).initial, σ (flipOptimizer prop cs a σ mx).initial.plan.mapping.get?) t).status = some (.ok ()) := h
      rw [h']
      rfl
    · rfl

theorem flip_posReach (hs : FlipSetting G W a S) (hr : Rates G W S r) {m m' : V → Option P} (hm : m ∈ S) (hm' : m' ∈ S) :
    Relation.ReflTransGen (PosStep S (flipKernel G W r)) m m' := by
  have h := hs.reach hm hm'
  induction h with
  | refl => exact .refl
  | tail h1 h ih =>
    have hmem : ∀ z, Relation.ReflTransGen (FlipMove G W) m z → z ∈ S := by
      intro z hz
      induction hz with
      | refl => exact hm
      | tail _ h ih => exact hs.closed ih h
    exact (ih (hmem _ h1)).tail ((flip_posStep hs hr (hmem _ h1)).2 h)

/-- one long burst finds an optimal plan from everywhere -/
theorem flip_long (hs : FlipSetting G W a S) (hr : Rates G W S r) {δ : ℚ} (hδ : 0 < δ) :
    ∃ n0 : ℕ, ∀ m ∈ S, ∀ n, n0 ≤ n → 1 - δ ≤ burstsMean S (flipKernel G W r) n σ mx 1 (isIn (IsOptimal S σ mx)) m := by
  have hK := flipKernel_isKernel hs hr
  obtain ⟨o, ho, hopt⟩ : ∃ o ∈ S, IsOptimal S σ mx o := by
    cases mx with
    | true =>
      obtain ⟨o, ho, h⟩ := S.exists_max_image σ ⟨_, hs.initial⟩
      exact ⟨o, ho, fun z hz => by simpa [isImprovement] using h z hz⟩
    | false =>
      obtain ⟨o, ho, h⟩ := S.exists_min_image σ ⟨_, hs.initial⟩
      exact ⟨o, ho, fun z hz => by simpa [isImprovement] using h z hz⟩
  have hex : ∀ m ∈ S, ∃ n0 : ℕ, ∀ n, n0 ≤ n → 1 - δ ≤ burstsMean S (flipKernel G W r) n σ mx 1 (isIn (IsOptimal S σ mx)) m := by
    intro m hm
    refine (run_find_iff hK hm (fun x hx y hxy => ?_)).1 (fun x hx => ⟨o, hopt, flip_posReach hs hr (reached_mem hm hx) ho⟩) δ hδ
    rcases hxy.cases_head with rfl | ⟨c, hc, -⟩
    · exact ⟨x, hx, .refl⟩
    · exact ⟨o, hopt, flip_posReach hs hr (reached_mem hc.1 hxy) ho⟩
  choose! g hg using hex
  exact ⟨S.sup g, fun m hm n hn => hg m hm n ((Finset.le_sup hm).trans hn)⟩

/-- bursts whose length doubles -/
theorem flip_grow (hs : FlipSetting G W a S) (hr : Rates G W S r) (hu : ∀ m ∈ S, 0 < u m) {δ : ℚ} (hδ : 0 < δ) :
    ∃ k0 : ℕ, ∀ k, k0 ≤ k → ∃ f0 : ℕ, ∀ f, f0 ≤ f → ∀ (N : ℕ) (prop : PlanState V P → M Tape (PlanState V P)), 0 < N →
      (∀ x : PlanState V P, InClass G S x → FlipLaw N d G prop x (u x.plan.mapping.get?) (r x.plan.mapping.get?)) → ∀ cs, Decides W cs →
      ∀ (stuckBuffer : ℤ) (body bursts L : ℕ), stuckBuffer ≤ 0 → k < body → k < bursts → k * (f * d) ≤ L →
        1 - δ ≤ avg N L (fun t => endsWith (FoundBest S σ mx) ((flipOptimizer prop cs a σ mx).variableLength alwaysAccept (k : ℕ) stuckBuffer f body bursts t)) := by
  obtain ⟨c, hc0, hc1, hc⟩ := exists_refusal_bound hs hr hu
  have hδ' : 0 < min (δ / 2) 1 := lt_min (by linarith) one_pos
  obtain ⟨n0, h0⟩ := flip_long (σ := σ) (mx := mx) hs hr hδ'
  refine ⟨3 * (n0 + 2), fun k hk => ?_⟩
  obtain ⟨ns, p1, p2, p3, p4⟩ := exists_growPlan k 2 (by omega)
  obtain ⟨n1, hn1, hn1'⟩ := growPlan_long (B := n0 + 2) ns 2 k (by omega) (by omega) p1
  obtain ⟨f0, hf0⟩ := enough_tries hc0 hc1 ns.sum hδ'
  refine ⟨f0 + 1, fun f hf N prop hN hlaw cs hcs sb body bursts L hsb hbody hbursts hL => ?_⟩
  obtain ⟨f, rfl⟩ : ∃ j, f = j + 1 := ⟨f - 1, by omega⟩
  have hO := optLaw_flips (a := a) hs hcs hN hlaw σ mx
  have hgood : InClass G S (⟨a, none⟩ : PlanState V P) := ⟨hs.coherent, hs.covers, hs.initial⟩
  have hrun : avg N L (fun t => endsWith (FoundBest S σ mx) ((flipOptimizer prop cs a σ mx).variableLength alwaysAccept (k : ℕ) sb (f + 1) body bursts t)) =
      lensMean S (triedKernel (fun m m' => u m * flipRate G W r m m') (fun m => 1 - u m * flipWeight G W r m) (f + 1)) σ mx ns (isIn (IsOptimal S σ mx)) a.mapping.get? := by
    have key := hO.growing hN f (hO.stepsAll (f + 1)) (numSteps := (k : ℕ)) hsb (Φ := fun b _ => if FoundBest S σ mx b then 1 else 0) (ψ := isIn (IsOptimal S σ mx)) 0
      (fun b hb hbs L' _ => by
        rw [avg_const hN]
        unfold isIn
        by_cases hTb : FoundBest S σ mx b
        · rw [if_pos hTb, if_pos ((foundBest_iff b hbs).1 hTb)]
        · rw [if_neg hTb, if_neg (fun e => hTb ((foundBest_iff b hbs).2 e))])
      body ns 2 k bursts p1 (by omega) (fun n hn => by have := p4 n hn; omega)
      ((flipOptimizer prop cs a σ mx).initial, σ (flipOptimizer prop cs a σ mx).initial.plan.mapping.get?) 0 0 hgood rfl (by simp) L
      ((Nat.mul_le_mul_right _ p3).trans hL)
    refine Eq.trans (avg_congr N L (fun t => ?_)) key
    unfold OptCfg.variableLength
    rw [hO.score (flipOptimizer prop cs a σ mx).initial hgood t]
    rfl
  rw [hrun]
  have hpow1 : c ^ (f + 1) ≤ 1 := pow_le_one₀ hc0 hc1.le
  have h1 := (lensMean_dominated (σ := σ) (mx := mx) (K := flipKernel G W r) (c := 1 - c ^ (f + 1)) (by linarith)
    (fun m hm m' hm' => (flips_dominated hs hr hcs hN hu hlaw hc hc1 (f + 1) hm hm').1)
    (fun m hm m' hm' => (flips_dominated hs hr hcs hN hu hlaw hc hc1 (f + 1) hm hm').2.1)
    (fun m hm m' hm' => (flips_dominated hs hr hcs hN hu hlaw hc hc1 (f + 1) hm hm').2.2) (ψ := isIn (IsOptimal S σ mx)) (fun m _ => isIn_nonneg m) ns
    a.mapping.get? hs.initial).2
  have h2 := lensMean_found (flipKernel_isKernel hs hr) h0 ns ⟨n1, hn1, by omega⟩ _ hs.initial
  have h3 := hf0 (f + 1) (by omega)
  refine le_trans ?_ h1
  have h4 : min (δ / 2) 1 ≤ δ / 2 := min_le_left _ _
  have h5 : min (δ / 2) 1 ≤ 1 := min_le_right _ _
  have h6 := mul_le_mul h3 h2 (by linarith) (le_trans (by linarith) h3)
  have h7 : 0 ≤ min (δ / 2) 1 * min (δ / 2) 1 := mul_self_nonneg _
  nlinarith

end generic

section theorems
variable (G : Graph V) (W : (V → Option P) → Bool) (a : Assignment V P) (S : Finset (V → Option P)) (σ : (V → Option P) → A) (mx : Bool) [DecidableEq (V → Option P)]

/-- **C121** (when it finds the best plan, `slow_reversible_propose`) With enough steps `variable_length_short_bursts` finds an optimal score with a probability as close to
1 as wanted, if and only if from every plan that single moves without a loss can get to from the initial one such moves can get to an optimal plan.  So it does not get out of
local optima, whatever `stuck_buffer ≥ 1` is. -/
theorem C121_slow_find_iff (hs : FlipSetting G W a S) :
    (∀ m, Relation.ReflTransGen (Climb G W σ mx) a.mapping.get? m → ∃ m', IsOptimal S σ mx m' ∧ Relation.ReflTransGen (Climb G W σ mx) m m') ↔
    ∀ δ : ℚ, 0 < δ → ∃ k0 : ℕ, ∀ k, k0 ≤ k → ∃ f0 : ℕ, ∀ f, f0 ≤ f → ∀ N, 0 < N → (∀ m ∈ S, (allowedMoves G m (fun _ => true)).card ∣ N) → ∀ cs, Decides W cs →
      ∀ (stuckBuffer : ℤ) (body bursts L : ℕ), 1 ≤ stuckBuffer → 2 < body → k < bursts → k / 2 * f ≤ L →
        1 - δ ≤ avg N L (fun t => endsWith (FoundBest S σ mx)
          ((flipOptimizer (slowMove N G) cs a σ mx).variableLength alwaysAccept (k : ℕ) stuckBuffer f body bursts t)) := by
  rw [← canFind_climb, C109_slow_find_iff G W a S σ mx hs 1]
  refine forall_congr' (fun δ => imp_congr_right (fun _ => ⟨?_, ?_⟩))
  · rintro ⟨num0, h⟩
    refine ⟨2 * num0, fun k hk => ?_⟩
    obtain ⟨f0, hf0⟩ := h (k / 2) (by omega)
    refine ⟨f0 + 1, fun f hf N hN hd cs hcs sb body bursts L hsb hbody hbursts hL => ?_⟩
    rw [avg_congr N L (fun t => flip_varBursts (d := 1) (u := fun m => 1 / (allowedMoves G m (fun _ => true)).card) (r := fun _ _ => 1) hs hcs hN
      (fun x hx => slow_flipLaw hs hN hd hx) (FoundBest S σ mx) hsb k f body bursts (by omega) hbody hbursts t)]
    exact hf0 f (by omega) N hN hd cs hcs body L (by omega) (by rwa [one_mul])
  · rintro ⟨k0, h⟩
    refine ⟨k0, fun num hnum => ?_⟩
    obtain ⟨f0, hf0⟩ := h (2 * num) (by omega)
    refine ⟨f0 + 1, fun f hf N hN hd cs hcs body L hbody hL => ?_⟩
    have e : 2 * num / 2 = num := by omega
    have := hf0 f (by omega) N hN hd cs hcs 1 body (2 * num + 1) L le_rfl (by omega) (by omega) (by rw [e]; rwa [one_mul] at hL)
    rw [avg_congr N L (fun t => flip_varBursts (d := 1) (u := fun m => 1 / (allowedMoves G m (fun _ => true)).card) (r := fun _ _ => 1) hs hcs hN
      (fun x hx => slow_flipLaw hs hN hd hx) (FoundBest S σ mx) le_rfl (2 * num) f body (2 * num + 1) (by omega)
      (by omega) (by omega) t), e] at this
    exact this

/-- **C121** (when it finds the best plan, `slow_reversible_propose_bi`) -/
theorem C121_bi_find_iff (hs : FlipSetting G W a S) (han : ∀ m ∈ S, Anchored G m) :
    (∀ m, Relation.ReflTransGen (Climb G W σ mx) a.mapping.get? m → ∃ m', IsOptimal S σ mx m' ∧ Relation.ReflTransGen (Climb G W σ mx) m m') ↔
    ∀ δ : ℚ, 0 < δ → ∃ k0 : ℕ, ∀ k, k0 ≤ k → ∃ f0 : ℕ, ∀ f, f0 ≤ f → ∀ N, 0 < N → (∀ m ∈ S, Divides N G m) → ∀ cs, Decides W cs →
      ∀ (stuckBuffer : ℤ) (body bursts L : ℕ), 1 ≤ stuckBuffer → 2 < body → k < bursts → k / 2 * (f * 2) ≤ L →
        1 - δ ≤ avg N L (fun t => endsWith (FoundBest S σ mx)
          ((flipOptimizer (biMove N G) cs a σ mx).variableLength alwaysAccept (k : ℕ) stuckBuffer f body bursts t)) := by
  rw [← canFind_climb, C109_bi_find_iff G W a S σ mx hs han 1]
  refine forall_congr' (fun δ => imp_congr_right (fun _ => ⟨?_, ?_⟩))
  · rintro ⟨num0, h⟩
    refine ⟨2 * num0, fun k hk => ?_⟩
    obtain ⟨f0, hf0⟩ := h (k / 2) (by omega)
    refine ⟨f0 + 1, fun f hf N hN hd cs hcs sb body bursts L hsb hbody hbursts hL => ?_⟩
    rw [avg_congr N L (fun t => flip_varBursts (d := 2) (u := fun m => 1 / (boundaryNodes G m).card) (r := biRate G) hs hcs hN
      (fun x hx => bi_flipLaw hs hN hd han hx) (FoundBest S σ mx) hsb k f body bursts (by omega) hbody hbursts t)]
    exact hf0 f (by omega) N hN hd cs hcs body L (by omega) (by rwa [one_mul])
  · rintro ⟨k0, h⟩
    refine ⟨k0, fun num hnum => ?_⟩
    obtain ⟨f0, hf0⟩ := h (2 * num) (by omega)
    refine ⟨f0 + 1, fun f hf N hN hd cs hcs body L hbody hL => ?_⟩
    have e : 2 * num / 2 = num := by omega
    have := hf0 f (by omega) N hN hd cs hcs 1 body (2 * num + 1) L le_rfl (by omega) (by omega) (by rw [e]; rwa [one_mul] at hL)
    rw [avg_congr N L (fun t => flip_varBursts (d := 2) (u := fun m => 1 / (boundaryNodes G m).card) (r := biRate G) hs hcs hN
      (fun x hx => bi_flipLaw hs hN hd han hx) (FoundBest S σ mx) le_rfl (2 * num) f body (2 * num + 1) (by omega)
      (by omega) (by omega) t), e] at this
    exact this

theorem climb_trap {G : Graph V} {W : (V → Option P) → Bool} {a : Assignment V P} {σ : (V → Option P) → A} {mx : Bool}
    (hstuck : ∀ m, FlipMove G W a.mapping.get? m → ¬ isImprovement mx (σ m) (σ a.mapping.get?) = true) (l : List (V → Option P))
    (hl : List.IsChain (FlipMove G W) (a.mapping.get? :: l)) (hlen : l.length = 1) (m : V → Option P) (hm : m ∈ l) (_ : m ≠ a.mapping.get?) :
    ¬ isImprovement mx (σ m) (σ a.mapping.get?) = true := by
  obtain ⟨z, rfl⟩ := List.length_eq_one_iff.1 hlen
  rw [List.mem_singleton.1 hm]
  exact hstuck z (List.isChain_cons_cons.1 hl).1

/-- **C121** (the trap, `slow_reversible_propose`) If all plans one allowed move away from the initial one have a worse score, `variable_length_short_bursts` never finds
another plan, with any number of steps. -/
theorem C121_slow_trap (hs : FlipSetting G W a S) (hstuck : ∀ m, FlipMove G W a.mapping.get? m → ¬ isImprovement mx (σ m) (σ a.mapping.get?) = true)
    (N : ℕ) (hN : 0 < N) (hd : ∀ m ∈ S, (allowedMoves G m (fun _ => true)).card ∣ N) (cs : List (Constraint Tape (PlanState V P))) (hcs : Decides W cs)
    (stuckBuffer : ℤ) (hsb : 1 ≤ stuckBuffer) (k f body bursts L : ℕ) (hf : 0 < f) (hbody : 2 < body) (hbursts : k < bursts) (hL : k / 2 * f ≤ L) :
    avg N L (fun t => endsWith (fun b => b.1.plan.mapping.get? ≠ a.mapping.get?)
      ((flipOptimizer (slowMove N G) cs a σ mx).variableLength alwaysAccept (k : ℕ) stuckBuffer f body bursts t)) = 0 := by
  rw [avg_congr N L (fun t => flip_varBursts (d := 1) (u := fun m => 1 / (allowedMoves G m (fun _ => true)).card) (r := fun _ _ => 1) hs hcs hN
      (fun x hx => slow_flipLaw hs hN hd hx) _ hsb k f body bursts hf hbody hbursts t)]
  exact C109_slow_trap G W a S σ mx hs 1 (climb_trap hstuck) N hN hd cs hcs (k / 2) f body L hf (by omega) (by rwa [one_mul])

/-- **C121** (the trap, `slow_reversible_propose_bi`) -/
theorem C121_bi_trap (hs : FlipSetting G W a S) (han : ∀ m ∈ S, Anchored G m)
    (hstuck : ∀ m, FlipMove G W a.mapping.get? m → ¬ isImprovement mx (σ m) (σ a.mapping.get?) = true)
    (N : ℕ) (hN : 0 < N) (hd : ∀ m ∈ S, Divides N G m) (cs : List (Constraint Tape (PlanState V P))) (hcs : Decides W cs)
    (stuckBuffer : ℤ) (hsb : 1 ≤ stuckBuffer) (k f body bursts L : ℕ) (hf : 0 < f) (hbody : 2 < body) (hbursts : k < bursts) (hL : k / 2 * (f * 2) ≤ L) :
    avg N L (fun t => endsWith (fun b => b.1.plan.mapping.get? ≠ a.mapping.get?)
      ((flipOptimizer (biMove N G) cs a σ mx).variableLength alwaysAccept (k : ℕ) stuckBuffer f body bursts t)) = 0 := by
  rw [avg_congr N L (fun t => flip_varBursts (d := 2) (u := fun m => 1 / (boundaryNodes G m).card) (r := biRate G) hs hcs hN
      (fun x hx => bi_flipLaw hs hN hd han hx) _ hsb k f body bursts hf hbody hbursts t)]
  exact C109_bi_trap G W a S σ mx hs han 1 (climb_trap hstuck) N hN hd cs hcs (k / 2) f body L hf (by omega) (by rwa [one_mul])

/-- **C121** (`stuck_buffer ≤ 0`, `slow_reversible_propose`) With `stuck_buffer=0` the bursts do get longer, and with enough steps `variable_length_short_bursts` finds an
optimal score with a probability as close to 1 as wanted, from every initial plan and for every score. -/
theorem C121_slow_grows (hs : FlipSetting G W a S) (δ : ℚ) (hδ : 0 < δ) :
    ∃ k0 : ℕ, ∀ k, k0 ≤ k → ∃ f0 : ℕ, ∀ f, f0 ≤ f → ∀ N, 0 < N → (∀ m ∈ S, (allowedMoves G m (fun _ => true)).card ∣ N) → ∀ cs, Decides W cs →
      ∀ (stuckBuffer : ℤ) (body bursts L : ℕ), stuckBuffer ≤ 0 → k < body → k < bursts → k * f ≤ L →
        1 - δ ≤ avg N L (fun t => endsWith (FoundBest S σ mx)
          ((flipOptimizer (slowMove N G) cs a σ mx).variableLength alwaysAccept (k : ℕ) stuckBuffer f body bursts t)) := by
  obtain ⟨k0, h⟩ := flip_grow (d := 1) (σ := σ) (mx := mx) hs slow_rates (slow_pos hs) hδ
  refine ⟨k0, fun k hk => ?_⟩
  obtain ⟨f0, hf0⟩ := h k hk
  exact ⟨f0, fun f hf N hN hd cs hcs sb body bursts L hsb hbody hbursts hL => hf0 f hf N (slowMove N G) hN (fun x hx => slow_flipLaw hs hN hd hx) cs hcs sb body bursts L hsb
    hbody hbursts (by rwa [mul_one])⟩

/-- **C121** (`stuck_buffer ≤ 0`, `slow_reversible_propose_bi`) -/
theorem C121_bi_grows (hs : FlipSetting G W a S) (han : ∀ m ∈ S, Anchored G m) (δ : ℚ) (hδ : 0 < δ) :
    ∃ k0 : ℕ, ∀ k, k0 ≤ k → ∃ f0 : ℕ, ∀ f, f0 ≤ f → ∀ N, 0 < N → (∀ m ∈ S, Divides N G m) → ∀ cs, Decides W cs →
      ∀ (stuckBuffer : ℤ) (body bursts L : ℕ), stuckBuffer ≤ 0 → k < body → k < bursts → k * (f * 2) ≤ L →
        1 - δ ≤ avg N L (fun t => endsWith (FoundBest S σ mx)
          ((flipOptimizer (biMove N G) cs a σ mx).variableLength alwaysAccept (k : ℕ) stuckBuffer f body bursts t)) := by
  obtain ⟨k0, h⟩ := flip_grow (d := 2) (σ := σ) (mx := mx) hs (bi_rates hs) (bi_pos hs) hδ
  refine ⟨k0, fun k hk => ?_⟩
  obtain ⟨f0, hf0⟩ := h k hk
  exact ⟨f0, fun f hf N hN hd cs hcs sb body bursts L hsb hbody hbursts hL => hf0 f hf N (biMove N G) hN (fun x hx => bi_flipLaw hs hN hd han hx) cs hcs sb body bursts L hsb
    hbody hbursts hL⟩

end theorems

/-- **C121 (violation)** On the path of four nodes, from the plan `0111` with the scores 1, 0, 2 of the three plans, no number of steps and no `stuck_buffer ≥ 1` lets
`variable_length_short_bursts` find another plan, while `short_bursts` with `burst_length=3` finds the best one with a probability as close to 1 as wanted. -/
theorem C121_violation :
    (∀ (stuckBuffer : ℤ) (k f : ℕ), 1 ≤ stuckBuffer → 0 < f → avg 2 (k / 2 * f) (fun t => endsWith (fun b => b.1.plan.mapping.get? ≠ walkA.mapping.get?)
      ((flipOptimizer (slowMove 2 walkPath) (chainAt walkA noneEmpty).isValid walkA twoPeaks true).variableLength alwaysAccept (k : ℕ) stuckBuffer f 3 (k + 1) t)) = 0) ∧
    ¬ IsOptimal walkPlans twoPeaks true walkA.mapping.get? ∧
    ∀ δ : ℚ, 0 < δ → ∃ num0 : ℕ, ∀ num, num0 ≤ num → ∃ f0 : ℕ, ∀ f, f0 ≤ f →
      1 - δ ≤ avg 2 (num * (2 * f)) (fun t => endsWith (FoundBest walkPlans twoPeaks true)
        ((flipOptimizer (slowMove 2 walkPath) (chainAt walkA noneEmpty).isValid walkA twoPeaks true).shortBursts alwaysAccept (2 + 1 : ℕ) num f 4 t)) := by
  refine ⟨fun sb k f hsb hf => ?_, by decide +kernel, fun δ hδ => ?_⟩
  · refine C121_slow_trap walkPath noneEmpty walkA walkPlans twoPeaks true walk_fromA ?_ 2 (by decide) (by decide +kernel) _ (chainAt_decides walkA noneEmpty)
      sb hsb k f 3 (k + 1) _ hf (by omega) (by omega) le_rfl
    rintro m ⟨x, hx, rfl⟩
    have : ∀ x ∈ allowedPairs walkPath walkA.mapping.get? noneEmpty, ¬ isImprovement true (twoPeaks (moved walkA.mapping.get? x.1 (walkA.mapping.get? x.2)))
        (twoPeaks walkA.mapping.get?) = true := by decide +kernel
    exact this x hx
  · obtain ⟨num0, h⟩ := C109_slow_long walkPath noneEmpty walkA walkPlans twoPeaks true walk_fromA 2 (by decide +kernel) δ hδ
    refine ⟨num0, fun num hnum => ?_⟩
    obtain ⟨f0, hf0⟩ := h num hnum
    exact ⟨f0, fun f hf => hf0 f hf 2 (by decide) (by decide +kernel) _ (chainAt_decides walkA noneEmpty) 4 _ (by omega) le_rfl⟩

/-! ### Examples -/

/-- The hypotheses of `C121_same_run` are met, and the run is not trivial: six steps are three bursts of two. -/
example : (exOpt.variableLength (fun _ s => (.ok true, s)) (2 * 3 : ℕ) 1 20 20 20 [3, 3, 7, 7, 7, 7]).toOption.map (fun x => (x.2.status, x.2.yielded, x.2.best)) =
      some (some (.ok ()), [1, 4, 4, 7, 7, 14], (7, 3)) ∧
    exOpt.variableLength (fun _ s => (.ok true, s)) (2 * 3 : ℕ) 1 20 20 20 [3, 3, 7, 7, 7, 7] =
      exOpt.shortBursts (fun _ s => (.ok true, s)) (2 : ℕ) 3 20 20 [3, 3, 7, 7, 7, 7] := by
  refine ⟨by decide +kernel, C121_same_run exOpt _ (fun r => |r - 10|) ⟨fun _ _ _ h => by simp [exOpt, OptCfg.chain] at h, fun _ _ _ h => by simp [OptCfg.chain] at h,
    fun con hc _ _ _ h => ?_⟩ (fun r s a s' h => ?_) 1 le_rfl 3 20 20 20 (by omega) (by omega) (by omega) _⟩
  · simp only [exOpt, List.mem_singleton] at hc
    subst hc
    simp at h
  · simp only [exOpt, Prod.mk.injEq, Except.ok.injEq] at h
    exact h.1.symm

/-- the path of four nodes with the size of the first district as the score: single moves without a loss lead to the best plan -/
example (δ : ℚ) (hδ : 0 < δ) : ∃ k0 : ℕ, ∀ k, k0 ≤ k → ∃ f0 : ℕ, ∀ f, f0 ≤ f →
    1 - δ ≤ avg 2 (k / 2 * f) (fun t => endsWith (FoundBest walkPlans (fun m => districtSize walkPath m 0) true)
      ((flipOptimizer (slowMove 2 walkPath) (chainAt walkA noneEmpty).isValid walkA (fun m => districtSize walkPath m 0) true).variableLength
        alwaysAccept (k : ℕ) 5 f 3 (k + 1) t)) := by
  have hup : ∀ m ∈ walkPlans, ∃ m', IsOptimal walkPlans (fun m => districtSize walkPath m 0) true m' ∧
      Relation.ReflTransGen (Climb walkPath noneEmpty (fun m => districtSize walkPath m 0) true) m m' := by
    have key : ∀ m ∈ walkPlans, IsOptimal walkPlans (fun m => districtSize walkPath m 0) true m ∨ ∃ x ∈ allowedPairs walkPath m noneEmpty,
        districtSize walkPath m 0 < districtSize walkPath (moved m x.1 (m x.2)) 0 := by decide +kernel
    have main : ∀ (j : ℕ) (m : Fin 4 → Option (Fin 2)), m ∈ walkPlans → 4 ≤ districtSize walkPath m 0 + j →
        ∃ m', IsOptimal walkPlans (fun m => districtSize walkPath m 0) true m' ∧
          Relation.ReflTransGen (Climb walkPath noneEmpty (fun m => districtSize walkPath m 0) true) m m' := by
      intro j
      induction j with
      | zero =>
        intro m hm hj
        have : ∀ m ∈ walkPlans, ¬ 4 ≤ districtSize walkPath m 0 := by decide +kernel
        exact absurd hj (this m hm)
      | succ j ih =>
        intro m hm hj
        rcases key m hm with h | ⟨x, hx, hlt⟩
        · exact ⟨m, h, .refl⟩
        · obtain ⟨m', h1, h2⟩ := ih _ (walk_fromA.closed hm ⟨x, hx, rfl⟩) (by omega)
          exact ⟨m', h1, .head ⟨⟨x, hx, rfl⟩, by simp only [isImprovement, if_true, decide_eq_true_eq]; exact hlt.le⟩ h2⟩
    exact fun m hm => main 4 m hm (by omega)
  have hmem : ∀ m, Relation.ReflTransGen (Climb walkPath noneEmpty (fun m => districtSize walkPath m 0) true) walkA.mapping.get? m → m ∈ walkPlans := by
    intro m h
    induction h with
    | refl => exact walk_fromA.initial
    | tail _ h ih => exact walk_fromA.closed ih h.1
  obtain ⟨k0, h⟩ := (C121_slow_find_iff walkPath noneEmpty walkA walkPlans (fun m => districtSize walkPath m 0) true walk_fromA).1 (fun m h => hup m (hmem m h)) δ hδ
  refine ⟨k0, fun k hk => ?_⟩
  obtain ⟨f0, hf0⟩ := h k hk
  exact ⟨f0, fun f hf => hf0 f hf 2 (by decide) (by decide +kernel) _ (chainAt_decides walkA noneEmpty) 5 3 (k + 1) _ (by omega) (by omega) (by omega) le_rfl⟩

/-- with `stuck_buffer=0` bursts of 2, 4 and 8 states, the last one cut off -/
example : (exOpt.variableLength (fun _ s => (.ok true, s)) 9 0 20 20 20 [3, 3, 6, 6, 6, 6]).toOption.map (fun x => (x.2.status, x.2.yielded)) =
    some (some (.ok ()), [1, 4, 4, 7, 13, 19, 13, 19, 25]) := by
  decide +kernel

/-- with `stuck_buffer=0` the trap of `C121_violation` is left -/
example (δ : ℚ) (hδ : 0 < δ) : ∃ k0 : ℕ, ∀ k, k0 ≤ k → ∃ f0 : ℕ, ∀ f, f0 ≤ f →
    1 - δ ≤ avg 2 (k * f) (fun t => endsWith (FoundBest walkPlans twoPeaks true)
      ((flipOptimizer (slowMove 2 walkPath) (chainAt walkA noneEmpty).isValid walkA twoPeaks true).variableLength alwaysAccept (k : ℕ) 0 f (k + 1) (k + 1) t)) := by
  obtain ⟨k0, h⟩ := C121_slow_grows walkPath noneEmpty walkA walkPlans twoPeaks true walk_fromA δ hδ
  refine ⟨k0, fun k hk => ?_⟩
  obtain ⟨f0, hf0⟩ := h k hk
  exact ⟨f0, fun f hf => hf0 f hf 2 (by decide) (by decide +kernel) _ (chainAt_decides walkA noneEmpty) 0 (k + 1) (k + 1) _ le_rfl (by omega) (by omega) le_rfl⟩

end GC

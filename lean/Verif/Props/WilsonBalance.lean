import Verif.Lemmas.Coupling

/-!
# Detailed balance of `reversible_recom` with the spanning trees of Wilson's algorithm (C56)

In `Props/DetailedBalance.lean` the spanning tree is drawn by an ideal uniform sampler.  Here it is drawn by `uniform_spanning_tree`, that is, by Wilson's
algorithm run on the same tape.  Its random walks have no bound, so the probabilities on tapes of length `L` converge to those of the ideal sampler.
-/

set_option linter.unusedSectionVars false
set_option autoImplicit false

namespace GC

variable {V P : Type} [LinearOrder V] [LinearOrder P]

/-- the probability that `reversible_recom` (proposals/tree_proposals.py:149-267), which draws its trees with `uniform_spanning_tree` (233, tree.py:97-132),
moves from the plan `a` to a plan with the districts `Q`; on tapes of length `L`.  `fuel` bounds the steps of a random walk. -/
def wilsonTransition (N L bound fuel : ℕ) (G : Graph V) (pop : V → ℚ) (target eps : ℚ) (a : Assignment V P) (Q : Finset (Finset V)) : ℚ :=
  prob N L (revFlips (uniRand N) (uniformSpanningTree (uniRand N) fuel) (memoBalance (uniRand N) false) bound false 1 G a pop target eps)
    (fun r => landsOn a Q r = true)

theorem hit_range (a : Assignment V P) (Q : Finset (Finset V)) (r : Py (Option (Dict V P))) : 0 ≤ hit a Q r ∧ hit a Q r ≤ 1 := by
  unfold hit
  split_ifs <;> norm_num

/-- the trees of `uniform_spanning_tree` have no weights -/
theorem span_weight {S : Type} {R : Rand S} {G : Graph V} {fuel : ℕ} {t t' : S} {T : WTree V} (h : uniformSpanningTree R fuel G t = (.ok T, t')) :
    T.weight = fun _ _ => none := by
  unfold uniformSpanningTree at h
  obtain ⟨root, t1, -, h2⟩ := M.bind_returns h
  obtain ⟨r, t2, -, h4⟩ := M.bind_returns h2
  obtain ⟨r', t3, -, h6⟩ := M.bind_returns h4
  cases h6
  rfl

section values
variable {N bound : ℕ} {G : Graph V} {a : Assignment V P} {Q : Finset (Finset V)} {pop : V → ℚ} {target eps : ℚ}

/-- the value of a tree does not depend on the length of the tape -/
theorem tree_const (h : RevSetup N bound G a Q pop target eps) {pair pq : P × P} (hpair : pair = pq ∨ pair = (pq.2, pq.1)) (hne : pq.1 ≠ pq.2)
    {s t : Finset V} (hs : a.parts.get? pq.1 = some s) (ht : a.parts.get? pq.2 = some t) {E : Finset (V × V)}
    (hE : E ∈ treeSets (G.subgraph (s ∪ t))) (L : ℕ) (hL : 3 + 2 * (s ∪ t).card ≤ L) :
    avg N L (fun w => hit a Q (revTree (uniRand N) (memoBalance (uniRand N) false) bound G a pop target eps pair pq (s ∪ t)
        ⟨⟨s ∪ t, E⟩, fun _ _ => none⟩ w).1) =
      avg N (3 + 2 * (s ∪ t).card) (fun w => hit a Q (revTree (uniRand N) (memoBalance (uniRand N) false) bound G a pop target eps pair pq (s ∪ t)
        ⟨⟨s ∪ t, E⟩, fun _ _ => none⟩ w).1) := by
  by_cases hmatch : a.plan \ Q = {s, t} ∧ (Q \ a.plan).card = 2
  · obtain ⟨hD1, hD2c⟩ := hmatch
    obtain ⟨A, B, hAB, hD2⟩ := Finset.card_eq_two.1 hD2c
    rw [tree_value h hpair hne hs ht hAB hD1 hD2 hE L hL, tree_value h hpair hne hs ht hAB hD1 hD2 hE _ (le_refl _)]
  · rw [tree_value_zero h hpair hne hs ht hmatch hE L hL, tree_value_zero h hpair hne hs ht hmatch hE _ (le_refl _)]

theorem RevSetup.fair (h : RevSetup N bound G a Q pop target eps) {U : Finset V} (hU : U ⊆ G.nodes) : FairFor (G.subgraph U) N := by
  refine ⟨h.pos, fun k hk hk' => h.dvd1 hk ?_⟩
  rw [subgraph_nodes hU] at hk'
  have := Finset.card_le_card hU
  nlinarith

open Classical in
/-- an edge of the seam: Wilson's algorithm comes as close as wanted to the ideal sampler -/
theorem edge_close (h : RevSetup N bound G a Q pop target eps) {pair : P × P} (hne : pair.1 ≠ pair.2) {s t : Finset V}
    (hs : a.parts.get? pair.1 = some s) (ht : a.parts.get? pair.2 = some t) {edge : V × V} (he : edge ∈ distPairEdges G a.mapping pair.1 pair.2)
    {δ : ℚ} (hδ : 0 < δ) :
    ∃ L0, ∀ L fuel, L0 ≤ L → L ≤ fuel →
      |avg N L (fun w => hit a Q (revEdge (uniRand N) (uniformSpanningTree (uniRand N) fuel) (memoBalance (uniRand N) false) bound G a pop target eps
        pair edge w).1) - if a.plan \ Q = {s, t} then pairValue bound G a Q else 0| ≤ δ := by
  obtain ⟨heG, hlab⟩ := mem_distPairEdges.1 he
  obtain ⟨pq, hpq⟩ := endLabels_total h.wf h.covers (u := edge.1) (v := edge.2) (.inl heG)
  obtain ⟨e1, e2⟩ := endLabels_ok hpq
  simp only at e1 e2
  have hpair : pair = pq ∨ pair = (pq.2, pq.1) := by
    rw [e1, e2] at hlab
    simp only [Option.some.injEq] at hlab
    rcases hlab with ⟨k1, k2⟩ | ⟨k1, k2⟩
    · exact .inl (Prod.ext k1.symm k2.symm)
    · exact .inr (Prod.ext k2.symm k1.symm)
  have main : ∀ {s t : Finset V}, pq.1 ≠ pq.2 → a.parts.get? pq.1 = some s → a.parts.get? pq.2 = some t →
      ∃ L0, ∀ L fuel, L0 ≤ L → L ≤ fuel →
      |avg N L (fun w => hit a Q (revEdge (uniRand N) (uniformSpanningTree (uniRand N) fuel) (memoBalance (uniRand N) false) bound G a pop target eps
        pair edge w).1) - if a.plan \ Q = {s, t} then pairValue bound G a Q else 0| ≤ δ := by
    intro s t hne hs ht
    have hU : s ∪ t ⊆ G.nodes := Finset.union_subset (h.sub hs) (h.sub ht)
    have hst : s ≠ t := fun e => hne (label_unique h.coherent h.contiguous hs (e ▸ ht))
    have hus : edge.1 ∈ s := (h.coherent.agree _ s hs _).2 e1
    have hvt : edge.2 ∈ t := (h.coherent.agree _ t ht _).2 e2
    have hconn : ConnectedOn G (s ∪ t) := connectedOn_union (h.contiguous _ s hs) (h.contiguous _ t ht) hus hvt (.inl heG)
    have hmer : mergedNodes a pq.1 pq.2 = .ok (s ∪ t) := by
      unfold mergedNodes
      rw [Dict.get_eq_ok_iff.2 hs, Dict.get_eq_ok_iff.2 ht]
      rfl
    have hn : (G.subgraph (s ∪ t)).nodes = s ∪ t := subgraph_nodes hU
    have hwf : (G.subgraph (s ∪ t)).WF := h.wf.subgraph _
    have hcard2 : 2 ≤ (G.subgraph (s ∪ t)).nodes.card := by
      rw [hn]
      refine Finset.one_lt_card.2 ⟨edge.1, Finset.mem_union_left _ hus, edge.2, Finset.mem_union_right _ hvt, fun e => hst ?_⟩
      exact h.isPart.disj s ((mem_plan h.coherent).2 ⟨_, hs⟩) t ((mem_plan h.coherent).2 ⟨_, ht⟩) edge.1 hus (e ▸ hvt)
    set k : WTree V → M Tape (Option (Dict V P)) :=
      fun T => revTree (uniRand N) (memoBalance (uniRand N) false) bound G a pop target eps pair pq (s ∪ t) T with hk
    have hprog : ∀ fuel, revEdge (uniRand N) (uniformSpanningTree (uniRand N) fuel) (memoBalance (uniRand N) false) bound G a pop target eps pair edge =
        (uniformSpanningTree (uniRand N) fuel (G.subgraph (s ∪ t)) >>= k) := by
      intro fuel
      unfold revEdge
      rw [hpq]
      show (M.lift (mergedNodes a pq.1 pq.2) >>= _ : M Tape _) = _
      rw [hmer]
      show (uniformSpanningTree (uniRand N) fuel (G.subgraph (s ∪ t)) >>= _ : M Tape _) = _
      rw [hn]
    -- the trees
    have htree : (treeSets (G.subgraph (s ∪ t))).Nonempty := exists_tree hwf ((connectedOn_subgraph (G := G) hU).2 hconn)
    obtain ⟨E0, hE0⟩ := htree
    have hτpos : (0 : ℚ) < (treeSets (G.subgraph (s ∪ t))).card := by exact_mod_cast Finset.card_pos.2 ⟨E0, hE0⟩
    set τ : ℚ := ((treeSets (G.subgraph (s ∪ t))).card : ℚ) with hτ
    set L2 := 3 + 2 * (s ∪ t).card with hL2
    set val : WTree V → ℚ := fun T => avg N L2 (fun w => hit a Q (k T w).1) with hval
    have hval01 : ∀ T, 0 ≤ val T ∧ val T ≤ 1 := fun T => avg_sub_le h.pos L2 (fun w => (hit_range _ _ _).1) (fun w => (hit_range _ _ _).2)
    have hcsum := edge_sum h hpair hne hs ht hconn L2 (le_refl _)
    set c := if a.plan \ Q = {s, t} then pairValue bound G a Q else 0 with hc
    have hcsum' : ∑ E ∈ treeSets (G.subgraph (s ∪ t)), val ⟨⟨s ∪ t, E⟩, fun _ _ => none⟩ = c * τ := by
      rw [← hcsum]
      show _ = _ / τ * τ
      rw [div_mul_cancel₀ _ hτpos.ne']
    have hc0 : 0 ≤ c := by
      have : 0 ≤ c * τ := by rw [← hcsum']; exact Finset.sum_nonneg (fun E _ => (hval01 _).1)
      exact nonneg_of_mul_nonneg_left this hτpos
    have hc1 : c ≤ 1 := by
      have : c * τ ≤ τ := by
        rw [← hcsum']
        refine (Finset.sum_le_sum (fun E _ => (hval01 _).2)).trans ?_
        simp [hτ]
      by_contra hcon
      push Not at hcon
      nlinarith
    have hfair := h.fair hU
    -- a tree that is returned is one of them
    have hret : ∀ fuel w w' T, uniformSpanningTree (strictRand N) fuel (G.subgraph (s ∪ t)) w = (.ok T, w') →
        ∃ E ∈ treeSets (G.subgraph (s ∪ t)), Builds (G.subgraph (s ∪ t)) E (.ok T) ∧
          (∀ E' ∈ treeSets (G.subgraph (s ∪ t)), Builds (G.subgraph (s ∪ t)) E' (.ok T) → E' = E) ∧ k T = k ⟨⟨s ∪ t, E⟩, fun _ _ => none⟩ := by
      intro fuel w w' T hT
      obtain ⟨E, hE, hadj, huniq⟩ := built_tree (strictRand_sound N) hwf hT
      refine ⟨E, hE, ⟨T, rfl, fun u v => (hadj u v).symm⟩, huniq, ?_⟩
      have hspan := (C41_uniform_spanning_tree (strictRand_sound N) fuel _ w w' T hT).1 hcard2
      have hTn : T.graph.nodes = s ∪ t := by rw [← hn]; exact hspan.nodes
      obtain ⟨Tg, Tw⟩ := T
      have hw := span_weight hT
      simp only at hw hTn hadj
      subst hw
      rw [hk]
      show revTree _ _ _ _ _ _ _ _ _ _ _ _ = revTree _ _ _ _ _ _ _ _ _ _ _ _
      unfold revTree boundedBalance
      rw [memoBalance_congr (uniRand N) false (s ∪ t) (T := Tg) (T' := ⟨s ∪ t, E⟩) hTn]
      intro u v
      rw [← hadj u v, hn]
    obtain ⟨L0, hL0⟩ := (C73_uniform (G.subgraph (s ∪ t)) hwf N hfair E0 hE0).2 (δ / (2 * τ)) (by positivity)
    refine ⟨L0 + L2, fun L fuel hL hf => ?_⟩
    obtain ⟨L1, rfl⟩ : ∃ L1, L = L1 + L2 := ⟨L - L2, by omega⟩
    set m := uniformSpanningTree (strictRand N) fuel (G.subgraph (s ∪ t)) with hm
    have hp := hL0 L1 fuel (by omega) (by omega)
    have heq : ∀ E ∈ treeSets (G.subgraph (s ∪ t)), prob N L1 m (Builds (G.subgraph (s ∪ t)) E) = prob N L1 m (Builds (G.subgraph (s ∪ t)) E0) :=
      fun E hE => C73_equally_likely _ N hfair E E0 hE hE0 L1 fuel (by omega)
    have hok : prob N L1 m IsOk = τ * prob N L1 m (Builds (G.subgraph (s ∪ t)) E0) := by
      rw [hm, prob_isOk hwf, Finset.sum_congr rfl heq, Finset.sum_const, nsmul_eq_mul]
    have hokge : 1 - δ / 2 ≤ prob N L1 m IsOk := by
      rw [hok]
      have : τ * (1 / τ - δ / (2 * τ)) ≤ τ * prob N L1 m (Builds (G.subgraph (s ∪ t)) E0) := mul_le_mul_of_nonneg_left hp hτpos.le
      have e : τ * (1 / τ - δ / (2 * τ)) = 1 - δ / 2 := by field_simp
      rw [e] at this
      exact this
    have hmean : avg N L1 (fun w => okValue val (m w).1) = c * prob N L1 m IsOk := by
      have hpoint : ∀ w : Tape, okValue val (m w).1 =
          ∑ E ∈ treeSets (G.subgraph (s ∪ t)), val ⟨⟨s ∪ t, E⟩, fun _ _ => none⟩ * if Builds (G.subgraph (s ∪ t)) E (m w).1 then (1 : ℚ) else 0 := by
        intro w
        rcases hr : m w with ⟨e | T, w'⟩
        · symm
          refine Finset.sum_eq_zero (fun E _ => ?_)
          rw [if_neg (not_builds_error _ E e), mul_zero]
        · obtain ⟨E, hE, hb, huniq, hkE⟩ := hret fuel w w' T hr
          rw [Finset.sum_eq_single_of_mem E hE, if_pos hb, mul_one]
          · show val T = _
            rw [hval]
            beta_reduce
            rw [hkE]
          · intro E' hE' hne'
            rw [if_neg (fun hb' => hne' (huniq E' hE' hb')), mul_zero]
      have hsum : avg N L1 (fun w => okValue val (m w).1) =
          ∑ E ∈ treeSets (G.subgraph (s ∪ t)), val ⟨⟨s ∪ t, E⟩, fun _ _ => none⟩ * prob N L1 m (Builds (G.subgraph (s ∪ t)) E) := by
        rw [avg_congr N L1 hpoint]
        unfold prob
        simp only [← avg_mul]
        unfold avg
        rw [← Finset.sum_div, Finset.sum_comm]
      rw [hsum, Finset.sum_congr rfl (fun E hE => by rw [heq E hE]), ← Finset.sum_mul, hcsum', hok, mul_assoc]
    have key := avg_coupled h.pos (strict_span N fuel (G.subgraph (s ∪ t))) (φ := fun w => hit a Q ((uniformSpanningTree (uniRand N) fuel
        (G.subgraph (s ∪ t)) >>= k) w).1) (fun w => (hit_range _ _ _).1) (fun w => (hit_range _ _ _).2) (ψ := fun T w => hit a Q (k T w).1) (v := val) L1 L2
      (fun w w' T hT => by rw [M.bind_of_ok (span_strict hT)])
      (fun w w' T hT L hL => by
        obtain ⟨E, hE, -, -, hkE⟩ := hret fuel w w' T hT
        rw [hval]
        beta_reduce
        rw [hkE]
        exact tree_const h hpair hne hs ht hE L hL)
    rw [hprog fuel]
    rw [← hm, hmean] at key
    have hp1 := prob_le_one h.pos L1 m IsOk
    rw [abs_le] at key ⊢
    obtain ⟨k1, k2⟩ := key
    constructor <;> nlinarith
  rcases hpair with hp | hp
  · rw [hp] at hne hs ht
    exact main hne hs ht
  · have hp1 : pair.1 = pq.2 := by rw [hp]
    have hp2 : pair.2 = pq.1 := by rw [hp]
    rw [hp1, hp2] at hne
    rw [hp1] at hs
    rw [hp2] at ht
    have := main hne.symm ht hs
    rw [Finset.pair_comm] at this
    exact this

/-- finitely many limits at once -/
theorem uniform_bound {α : Type} (s : Finset α) {p : α → ℕ → Prop} (h : ∀ x ∈ s, ∃ L0, ∀ L, L0 ≤ L → p x L) : ∃ L0, ∀ x ∈ s, ∀ L, L0 ≤ L → p x L := by
  classical
  induction s using Finset.induction_on with
  | empty => exact ⟨0, fun x hx => absurd hx (Finset.notMem_empty _)⟩
  | insert y s hy ih =>
    obtain ⟨L1, h1⟩ := ih (fun x hx => h x (Finset.mem_insert_of_mem hx))
    obtain ⟨L2, h2⟩ := h y (Finset.mem_insert_self _ _)
    refine ⟨L1 + L2, fun x hx L hL => ?_⟩
    rcases Finset.mem_insert.1 hx with rfl | hx
    · exact h2 L (by omega)
    · exact h1 x hx L (by omega)

/-- the whole move -/
theorem wilson_move_close (h : RevSetup N bound G a Q pop target eps) {δ : ℚ} (hδ : 0 < δ) :
    ∃ L0, ∀ L fuel, L0 ≤ L → L ≤ fuel →
      |wilsonTransition N L bound fuel G pop target eps a Q - 2 * pairValue bound G a Q / (a.parts.keys.length : ℚ) ^ 2| ≤ δ := by
  have hp : ∀ pair ∈ (allPairs a).toFinset, ∃ L0, ∀ L, L0 ≤ L → ∀ fuel, L ≤ fuel → ∀ s t, a.parts.get? pair.1 = some s → a.parts.get? pair.2 = some t →
      |avg N L (fun w => hit a Q (revPair (uniRand N) (uniformSpanningTree (uniRand N) fuel) (memoBalance (uniRand N) false) bound G a pop target eps
        pair w).1) - if a.plan \ Q = {s, t} then pairValue bound G a Q else 0| ≤ δ := by
    intro pair hpair
    obtain ⟨hk1, hk2⟩ := mem_allPairs.1 (List.mem_toFinset.1 hpair)
    obtain ⟨s, hs⟩ := Dict.mem_keys_iff.1 hk1
    obtain ⟨t, ht⟩ := Dict.mem_keys_iff.1 hk2
    have he : ∀ edge ∈ distPairEdges G a.mapping pair.1 pair.2, ∃ L0, ∀ L, L0 ≤ L → pair.1 ≠ pair.2 → ∀ fuel, L ≤ fuel →
        |avg N L (fun w => hit a Q (revEdge (uniRand N) (uniformSpanningTree (uniRand N) fuel) (memoBalance (uniRand N) false) bound G a pop target eps
        pair edge w).1) - if a.plan \ Q = {s, t} then pairValue bound G a Q else 0| ≤ δ := by
      intro edge hedge
      by_cases hne : pair.1 = pair.2
      · exact ⟨0, fun L _ h' => absurd hne h'⟩
      · obtain ⟨L0, h0⟩ := edge_close h hne hs ht hedge hδ
        exact ⟨L0, fun L hL _ fuel hf => h0 L fuel hL hf⟩
    obtain ⟨L0, h0⟩ := uniform_bound _ he
    refine ⟨L0 + 1, fun L hL fuel hf s' t' hs' ht' => ?_⟩
    rw [hs] at hs'
    rw [ht] at ht'
    cases hs'
    cases ht'
    obtain ⟨L, rfl⟩ : ∃ L', L = L' + 1 := ⟨L - 1, by omega⟩
    exact pair_close h (uniformSpanningTree (uniRand N) fuel) hs ht L hδ.le (fun hne edge hedge => h0 edge hedge L (by omega) hne fuel (by omega))
  obtain ⟨L0, h0⟩ := uniform_bound _ hp
  refine ⟨L0 + 1, fun L fuel hL hf => ?_⟩
  obtain ⟨L, rfl⟩ : ∃ L', L = L' + 1 := ⟨L - 1, by omega⟩
  refine move_close h (uniformSpanningTree (uniRand N) fuel) Nat.one_pos L (fun pair s t hs ht => ?_)
  refine h0 pair ?_ L (by omega) fuel (by omega) s t hs ht
  exact List.mem_toFinset.2 (mem_allPairs.2 ⟨Dict.mem_keys_iff.2 ⟨s, hs⟩, Dict.mem_keys_iff.2 ⟨t, ht⟩⟩)

end values

/-! ### The theorems -/

/-- **C56** (transition probabilities with Wilson's algorithm) The formula of `C56_transition_formula` is the limit, for long tapes, of the probability that
`reversible_recom` with its own spanning tree method moves from `a` to `Q`. -/
theorem C56_wilson_transition (G : Graph V) (hG : G.WF) (pop : V → ℚ) (target eps : ℚ) (bound : ℕ)
    (hbound : ∀ U ⊆ G.nodes, ∀ E ∈ treeSets (G.subgraph U), (balancedEdges U E pop target eps).card ≤ bound)
    (a : Assignment V P) (ha : a.Coherent) (hcov : a.Covers G.nodes) (hc : ContiguousPlan G a)
    (Q : Finset (Finset V)) (hQ : IsPartition G.nodes Q) (hnear : ∀ X ∈ Q, Near target eps (popOf pop X)) (hne : a.plan ≠ Q)
    (N : ℕ) (hN : 0 < N) (hdiv : (G.nodes.card ^ 2 + 2 ^ G.edges.card + bound * G.edges.card).factorial ∣ N) (δ : ℚ) (hδ : 0 < δ) :
    ∃ L0, ∀ L fuel, L0 ≤ L → L ≤ fuel →
      |wilsonTransition N L bound fuel G pop target eps a Q -
        if (a.plan \ Q).card = 2 ∧ (Q \ a.plan).card = 2 then
          2 * ((∏ X ∈ Q \ a.plan, numTrees G X : ℕ) : ℚ) / (a.plan.card ^ 2 * (bound * numTrees G ((a.plan \ Q).biUnion id))) else 0| ≤ δ := by
  have h : RevSetup N bound G a Q pop target eps := ⟨hG, hN, hdiv, hbound, ha, hcov, hc, hQ, hnear, hne⟩
  rw [← C56_transition_formula G hG pop target eps bound hbound a ha hcov hc Q hQ hnear hne 1 Nat.one_pos N hN hdiv (6 + 2 * G.nodes.card) (le_refl _),
    move_value h Nat.one_pos _ (le_refl _)]
  exact wilson_move_close h hδ

/-- **C56** (detailed balance with Wilson's algorithm) For two different plans whose districts are connected and within `eps` of the target, the probability
that `reversible_recom` with its own spanning tree method moves from the one to the other, times the product of the numbers of spanning trees of the districts
of the one, is in the limit of long tapes the same in both directions. -/
theorem C56_wilson_balance (G : Graph V) (hG : G.WF) (pop : V → ℚ) (target eps : ℚ) (bound : ℕ)
    (hbound : ∀ U ⊆ G.nodes, ∀ E ∈ treeSets (G.subgraph U), (balancedEdges U E pop target eps).card ≤ bound)
    (a b : Assignment V P) (ha : a.Coherent) (hb : b.Coherent) (hcova : a.Covers G.nodes) (hcovb : b.Covers G.nodes)
    (hca : ContiguousPlan G a) (hcb : ContiguousPlan G b) (hneara : ∀ X ∈ a.plan, Near target eps (popOf pop X))
    (hnearb : ∀ X ∈ b.plan, Near target eps (popOf pop X)) (hne : a.plan ≠ b.plan)
    (N : ℕ) (hN : 0 < N) (hdiv : (G.nodes.card ^ 2 + 2 ^ G.edges.card + bound * G.edges.card).factorial ∣ N) (δ : ℚ) (hδ : 0 < δ) :
    ∃ L0, ∀ L fuel, L0 ≤ L → L ≤ fuel →
      |wilsonTransition N L bound fuel G pop target eps a b.plan * ((∏ X ∈ a.plan, numTrees G X : ℕ) : ℚ) -
        wilsonTransition N L bound fuel G pop target eps b a.plan * ((∏ X ∈ b.plan, numTrees G X : ℕ) : ℚ)| ≤ δ := by
  have pa := isPartition_plan ha hcova hca
  have pb := isPartition_plan hb hcovb hcb
  set wa : ℚ := ((∏ X ∈ a.plan, numTrees G X : ℕ) : ℚ) with hwa
  set wb : ℚ := ((∏ X ∈ b.plan, numTrees G X : ℕ) : ℚ) with hwb
  have ha0 : 0 ≤ wa := by positivity
  have hb0 : 0 ≤ wb := by positivity
  have ra : RevSetup N bound G a b.plan pop target eps := ⟨hG, hN, hdiv, hbound, ha, hcova, hca, pb, hnearb, hne⟩
  have rb : RevSetup N bound G b a.plan pop target eps := ⟨hG, hN, hdiv, hbound, hb, hcovb, hcb, pa, hneara, hne.symm⟩
  have hbal := C56_detailed_balance G hG pop target eps bound hbound a b ha hb hcova hcovb hca hcb hneara hnearb hne 1 Nat.one_pos N hN hdiv
    (6 + 2 * G.nodes.card) (le_refl _)
  rw [move_value ra Nat.one_pos _ (le_refl _), move_value rb Nat.one_pos _ (le_refl _), ← hwa, ← hwb] at hbal
  have hδ' : 0 < δ / (wa + wb + 1) := by positivity
  obtain ⟨L1, h1⟩ := wilson_move_close ra hδ'
  obtain ⟨L2, h2⟩ := wilson_move_close rb hδ'
  refine ⟨L1 + L2, fun L fuel hL hf => ?_⟩
  have k1 := h1 L fuel (by omega) hf
  have k2 := h2 L fuel (by omega) hf
  set x := wilsonTransition N L bound fuel G pop target eps a b.plan
  set y := wilsonTransition N L bound fuel G pop target eps b a.plan
  set X := 2 * pairValue bound G a b.plan / (a.parts.keys.length : ℚ) ^ 2
  set Y := 2 * pairValue bound G b a.plan / (b.parts.keys.length : ℚ) ^ 2
  have e : x * wa - y * wb = (x - X) * wa - (y - Y) * wb := by
    have : X * wa = Y * wb := hbal
    linarith
  rw [e]
  calc |(x - X) * wa - (y - Y) * wb| ≤ |(x - X) * wa| + |(y - Y) * wb| := abs_sub _ _
    _ ≤ δ / (wa + wb + 1) * wa + δ / (wa + wb + 1) * wb := by
        rw [abs_mul, abs_mul, abs_of_nonneg ha0, abs_of_nonneg hb0]
        exact add_le_add (mul_le_mul_of_nonneg_right k1 ha0) (mul_le_mul_of_nonneg_right k2 hb0)
    _ = δ * ((wa + wb) / (wa + wb + 1)) := by ring
    _ ≤ δ * 1 := by
        refine mul_le_mul_of_nonneg_left ?_ hδ.le
        rw [div_le_one (by positivity)]
        linarith
    _ = δ := mul_one δ

/-- the hypotheses hold for the two plans of a square, and in the limit the move between them has a positive probability -/
example : ∃ c : ℚ, 0 < c ∧ ∃ L0, ∀ L fuel, L0 ≤ L → L ≤ fuel →
    c ≤ wilsonTransition (Nat.factorial 44) L 3 fuel ringGraph (fun _ => 1) 2 0 ringA ringB.plan := by
  obtain ⟨hwf, hcovA, hcovB, hne, -, nearB, hpos⟩ := ring_positive
  have hN : (ringGraph.nodes.card ^ 2 + 2 ^ ringGraph.edges.card + 3 * ringGraph.edges.card).factorial ∣ Nat.factorial 44 := by
    have : ringGraph.nodes.card ^ 2 + 2 ^ ringGraph.edges.card + 3 * ringGraph.edges.card = 44 := by decide
    rw [this]
  have hpart := isPartition_plan ring_coherent.2 hcovB ring_contiguous.2
  set c := transition (Nat.factorial 44) 14 3 1 ringGraph (fun _ => 1) 2 0 ringA ringB.plan with hc
  have hlim := C56_wilson_transition ringGraph hwf (fun _ => 1) 2 0 3 ring_bound ringA ring_coherent.1 hcovA ring_contiguous.1 ringB.plan hpart nearB hne
    (Nat.factorial 44) (Nat.factorial_pos _) hN (c / 2) (by positivity)
  rw [← C56_transition_formula ringGraph hwf (fun _ => 1) 2 0 3 ring_bound ringA ring_coherent.1 hcovA ring_contiguous.1 ringB.plan hpart nearB hne 1
    Nat.one_pos (Nat.factorial 44) (Nat.factorial_pos _) hN 14 (by decide), ← hc] at hlim
  obtain ⟨L0, h0⟩ := hlim
  refine ⟨c / 2, by positivity, L0, fun L fuel hL hf => ?_⟩
  have := (abs_le.1 (h0 L fuel hL hf)).1
  linarith

end GC

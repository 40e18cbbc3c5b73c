import Verif.Props.WilsonBalance

/-!
# C74: the spanning-tree distribution is stationary for `reversible_recom`

The states are the plans without labels that have `k` connected districts, all within `eps` of the target.
-/

set_option linter.unusedSectionVars false
set_option autoImplicit false

namespace GC

variable {V P : Type} [LinearOrder V] [LinearOrder P]

/-- `k` disjoint connected districts that cover the nodes, all within `eps` of the target -/
def IsPlan (G : Graph V) (pop : V → ℚ) (target eps : ℚ) (k : ℕ) (Q : Finset (Finset V)) : Prop :=
  IsPartition G.nodes Q ∧ Q.card = k ∧ ∀ X ∈ Q, ConnectedOn G X ∧ Near target eps (popOf pop X)

open Classical in
/-- all these plans -/
noncomputable def plans (G : Graph V) (pop : V → ℚ) (target eps : ℚ) (k : ℕ) : Finset (Finset (Finset V)) :=
  G.nodes.powerset.powerset.filter (IsPlan G pop target eps k)

/-- the weight of a plan: the number of ways to choose a spanning tree in every district -/
noncomputable def treeWeight (G : Graph V) (Q : Finset (Finset V)) : ℚ := ((∏ X ∈ Q, numTrees G X : ℕ) : ℚ)

theorem mem_plans {G : Graph V} {pop : V → ℚ} {target eps : ℚ} {k : ℕ} {Q : Finset (Finset V)} :
    Q ∈ plans G pop target eps k ↔ IsPlan G pop target eps k Q := by
  classical
  unfold plans
  rw [Finset.mem_filter, and_iff_right_iff_imp]
  intro h
  rw [Finset.mem_powerset]
  intro X hX
  rw [Finset.mem_powerset]
  intro x hx
  exact (h.1.cover x).2 ⟨X, hX, hx⟩

section setup
variable {G : Graph V} {pop : V → ℚ} {target eps : ℚ} {k : ℕ} {a : Assignment V P}

/-- a labelling of a plan -/
theorem labelled (ha : a.Coherent) (hp : IsPlan G pop target eps k a.plan) : a.Covers G.nodes ∧ ContiguousPlan G a := by
  constructor
  · intro v
    rw [Dict.mem_keys_iff, hp.1.cover v]
    constructor
    · rintro ⟨p, h⟩
      obtain ⟨X, hX⟩ := Dict.mem_keys_iff.1 (ha.complete _ _ h)
      exact ⟨X, (mem_plan ha).2 ⟨p, hX⟩, (ha.agree p X hX v).2 h⟩
    · rintro ⟨X, hX, hv⟩
      obtain ⟨p, hpX⟩ := (mem_plan ha).1 hX
      exact ⟨p, (ha.agree p X hpX v).1 hv⟩
  · intro p s hs
    exact (hp.2.2 s ((mem_plan ha).2 ⟨p, hs⟩)).1

theorem spanOk_ideal (N : ℕ) : SpanOk (uniformSpan (V := V) N) := by
  intro H w t w' hH _ h
  unfold uniformSpan at h
  obtain ⟨E, w1, h1, h2⟩ := M.bind_eq_ok h
  cases h2
  classical
  have hE : E ∈ treeSets H := by
    have hmem : ∀ {l : List (Finset (V × V))} {w w' : Tape} {x}, (uniRand N).choice l w = (.ok x, w') → x ∈ l := by
      intro l w w' x hx
      cases l with
      | nil => cases hx
      | cons y l =>
        cases hx
        exact List.getElem_mem _
    exact Finset.mem_toList.1 (hmem h1)
  unfold treeSets at hE
  obtain ⟨h3, h4⟩ := Finset.mem_filter.1 hE
  have h3 := Finset.mem_powerset.1 h3
  exact .inl ⟨h4, rfl, fun u v h => h.imp (fun h => h3 h) (fun h => h3 h)⟩

/-- two districts that touch have at least three nodes together (otherwise `find_balanced_edge_cuts_memoization` raises `IndexError`, see C31) -/
def RoomToCut (G : Graph V) (Q : Finset (Finset V)) : Prop :=
  ∀ s ∈ Q, ∀ t ∈ Q, s ≠ t → (∃ u ∈ s, ∃ v ∈ t, G.Adj u v) → 3 ≤ (s ∪ t).card

variable {N bound : ℕ}

/-- the move never raises -/
theorem move_total (hG : G.WF) (hN : 0 < N) (hbound : ∀ U ⊆ G.nodes, ∀ E ∈ treeSets (G.subgraph U), (balancedEdges U E pop target eps).card ≤ bound)
    (ha : a.Coherent) (hp : IsPlan G pop target eps k a.plan) (hk : 0 < k) (hroom : RoomToCut G a.plan) (fuel : ℕ) (hf : 0 < fuel) (w : Tape) :
    ∃ r w', revMove N bound fuel G a pop target eps w = (.ok r, w') := by
  obtain ⟨hcov, hc⟩ := labelled ha hp
  have hR := uniRand_valid hN
  obtain ⟨f, rfl⟩ : ∃ f, fuel = f + 1 := ⟨fuel - 1, by omega⟩
  have hkeys : a.parts.keys ≠ [] := by
    intro e
    have := card_plan ha hc
    rw [e, hp.2.1] at this
    simp at this
    omega
  unfold revMove
  rw [revFlips_eq]
  obtain ⟨pair, -, w1, h1⟩ := hR.choice_mem (allPairs a) w (allPairs_ne_nil hkeys)
  rw [M.bind_ok h1]
  unfold revPair
  by_cases hself : pair.1 = pair.2 ∨ distPairEdges G a.mapping pair.1 pair.2 = ∅
  · rw [if_pos hself]
    exact ⟨none, w1, rfl⟩
  rw [if_neg hself]
  rw [not_or] at hself
  have hnil : iterE (distPairEdges G a.mapping pair.1 pair.2) ≠ [] := by
    intro e
    have := length_iterE (distPairEdges G a.mapping pair.1 pair.2)
    rw [e] at this
    simp only [List.length_nil] at this
    exact hself.2 (Finset.card_eq_zero.1 this.symm)
  obtain ⟨edge, hedge, w2, h2⟩ := hR.choice_mem _ w1 hnil
  rw [M.bind_ok h2]
  obtain ⟨heG, hlab⟩ := mem_distPairEdges.1 (mem_iterE.1 hedge)
  obtain ⟨pq, hpq⟩ := endLabels_total hG hcov (u := edge.1) (v := edge.2) (.inl heG)
  obtain ⟨e1, e2⟩ := endLabels_ok hpq
  simp only at e1 e2
  have hpair : pair = pq ∨ pair = (pq.2, pq.1) := by
    rw [e1, e2] at hlab
    simp only [Option.some.injEq] at hlab
    rcases hlab with ⟨k1, k2⟩ | ⟨k1, k2⟩
    · exact .inl (Prod.ext k1.symm k2.symm)
    · exact .inr (Prod.ext k2.symm k1.symm)
  have hne : pq.1 ≠ pq.2 := by
    rcases hpair with h | h
    · rw [← h]; exact hself.1
    · intro e
      apply hself.1
      rw [h]
      exact e.symm
  obtain ⟨s, hs⟩ := Dict.mem_keys_iff.1 (ha.complete _ _ e1)
  obtain ⟨t, ht⟩ := Dict.mem_keys_iff.1 (ha.complete _ _ e2)
  have hs' : s ∈ a.plan := (mem_plan ha).2 ⟨_, hs⟩
  have ht' : t ∈ a.plan := (mem_plan ha).2 ⟨_, ht⟩
  have hU : s ∪ t ⊆ G.nodes := by
    refine Finset.union_subset (fun x hx => (hp.1.cover x).2 ⟨s, hs', hx⟩) (fun x hx => (hp.1.cover x).2 ⟨t, ht', hx⟩)
  have hst : s ≠ t := fun e => hne (label_unique ha hc hs (e ▸ ht))
  have hus : edge.1 ∈ s := (ha.agree _ s hs _).2 e1
  have hvt : edge.2 ∈ t := (ha.agree _ t ht _).2 e2
  have hconn : ConnectedOn G (s ∪ t) := connectedOn_union (hc _ s hs) (hc _ t ht) hus hvt (.inl heG)
  have h3 : 3 ≤ (s ∪ t).card := hroom s hs' t ht' hst ⟨_, hus, _, hvt, .inl heG⟩
  have hmer : mergedNodes a pq.1 pq.2 = .ok (s ∪ t) := by
    unfold mergedNodes
    rw [Dict.get_eq_ok_iff.2 hs, Dict.get_eq_ok_iff.2 ht]
    rfl
  have hn : (G.subgraph (s ∪ t)).nodes = s ∪ t := subgraph_nodes hU
  unfold revEdge
  rw [hpq]
  show ∃ r w', (M.lift (mergedNodes a pq.1 pq.2) >>= _ : M Tape _) w2 = _
  rw [hmer]
  show ∃ r w', (uniformSpan N (G.subgraph (s ∪ t)) >>= _ : M Tape _) w2 = _
  unfold uniformSpan
  rw [M.bind_assoc', hn]
  have htree := exists_tree (hG.subgraph (s ∪ t)) ((connectedOn_subgraph (G := G) hU).2 hconn)
  obtain ⟨E, hE, w3, h4⟩ := hR.choice_mem (treeSets (G.subgraph (s ∪ t))).toList w2 (by simpa using htree.ne_empty)
  have hE := Finset.mem_toList.1 hE
  rw [M.bind_ok h4]
  show ∃ r w', revTree (uniRand N) (memoBalance (uniRand N) false) bound G a pop target eps pair pq (s ∪ t) ⟨⟨s ∪ t, E⟩, fun _ _ => none⟩ w3 = _
  unfold revTree
  obtain ⟨cuts, w4, h5, hcl⟩ := tree_cuts (G := G) (bound := bound) (pop := pop) (target := target) (eps := eps) hU hE hN h3 (hbound _ hU E hE) w3
  rw [M.bind_ok h5]
  unfold revCuts
  by_cases hcuts : cuts = []
  · rw [if_pos hcuts]
    exact ⟨none, w4, rfl⟩
  rw [if_neg hcuts]
  obtain ⟨c, hcm, w5, h6⟩ := hR.choice_mem cuts w4 hcuts
  rw [M.bind_ok h6]
  obtain ⟨c1, c2, c3, c4⟩ := hcl.split hG hU hE hcm
  have hlen : cuts.length ≤ bound := (length_cuts_le hcl.nodup (fun c hcm => (hcl.sound c hcm).1)).trans (hbound _ hU E hE)
  have hpos : 0 < cuts.length := List.length_pos_iff.2 hcuts
  obtain ⟨b, hb⟩ := cutFlips_total (G := G) ha hs ht c1
  have hse : distPairEdges G b.mapping pair.1 pair.2 = seamOf G c.subset ((s ∪ t) \ c.subset) := by
    rw [← seam_cutFlips ha hne hs ht c1 hb]
    rcases hpair with rfl | rfl
    · rfl
    · exact distPairEdges_comm _ _ _ _
  set m := (seamOf G c.subset ((s ∪ t) \ c.subset)).card with hm
  have hbm : 0 < bound * m := Nat.mul_pos (by omega) c4
  have hrp : revProb bound cuts.length m = .ok ((cuts.length : ℚ) / (bound * m)) := by
    unfold revProb
    rw [if_neg]
    · push_cast; rfl
    · have : (0 : ℤ) < bound * m := by exact_mod_cast hbm
      omega
  have hle1 : (cuts.length : ℚ) / (bound * m) ≤ 1 := by
    have hQ : (0 : ℚ) < bound * m := by exact_mod_cast hbm
    rw [div_le_one hQ]
    have : cuts.length ≤ bound * m := hlen.trans (Nat.le_mul_of_pos_right _ c4)
    exact_mod_cast this
  unfold revCut
  rw [hb]
  show ∃ r w', (M.lift (revProb (bound : ℤ) cuts.length (distPairEdges G b.mapping pair.1 pair.2).card) >>= _ : M Tape _) w5 = _
  rw [hse, ← hm, hrp]
  show ∃ r w', (if (cuts.length : ℚ) / (bound * m) > 1 then _ else _ : M Tape _) w5 = _
  rw [if_neg (not_lt.2 hle1)]
  obtain ⟨x, w6, h7, -⟩ := hR.random_ok w5
  rw [M.bind_ok h7]
  by_cases hx : x < (cuts.length : ℚ) / (bound * m)
  · rw [if_pos hx]
    exact ⟨_, w6, rfl⟩
  · rw [if_neg hx]
    exact ⟨_, w6, rfl⟩

/-- the move ends in exactly one of the plans -/
theorem move_lands (hG : G.WF) (hN : 0 < N) (ha : a.Coherent) (hp : IsPlan G pop target eps k a.plan) (fuel : ℕ) {w w' : Tape}
    {r : Option (Dict V P)} (h : revMove N bound fuel G a pop target eps w = (.ok r, w')) :
    ∃ Q ∈ plans G pop target eps k, ∀ Q', landsOn a Q' (.ok r) = true ↔ Q' = Q := by
  obtain ⟨hcov, hc⟩ := labelled ha hp
  rcases r with _ | flips
  · refine ⟨a.plan, mem_plans.2 hp, fun Q' => ?_⟩
    unfold landsOn
    rw [decide_eq_true_eq]
    exact eq_comm
  · obtain ⟨hwf, b, hb, p, q, hrec⟩ := C40_result (uniRand N) (uniRand_valid hN) (uniformSpan N) (spanOk_ideal N) (memoBalance (uniRand N))
      (balanceOk_memo (uniRand N) (uniRand_valid hN)) bound false fuel G hG a ha hcov hc pop target eps w w' flips h
    have hbc : b.Coherent := (flip_ok ha hwf hb).1
    have hcb := hrec.contiguous hc
    have hcovb : b.Covers G.nodes := by
      intro v
      rw [← hcov v, Dict.mem_keys_iff, Dict.mem_keys_iff]
      by_cases h1 : a.mapping.get? v = some p ∨ a.mapping.get? v = some q
      · constructor
        · intro _
          rcases h1 with h1 | h1 <;> exact ⟨_, h1⟩
        · intro _
          rcases hrec.inside v h1 with h2 | h2 <;> exact ⟨_, h2⟩
      · rw [not_or] at h1
        rw [hrec.outside v h1.1 h1.2]
    have hbal : BalancedPlan pop target eps a := by
      intro x s hs
      have := (hp.2.2 s ((mem_plan ha).2 ⟨x, hs⟩)).2
      unfold Near popOf at this
      rw [abs_le] at this
      constructor <;> linarith [this.1, this.2]
    have hbalb := hrec.balanced hbal
    refine ⟨b.plan, mem_plans.2 ⟨isPartition_plan hbc hcovb hcb, ?_, ?_⟩, fun Q' => ?_⟩
    · rw [card_plan hbc hcb, hrec.keys, ← card_plan ha hc, hp.2.1]
    · intro X hX
      obtain ⟨x, hx⟩ := (mem_plan hbc).1 hX
      refine ⟨hcb x X hx, ?_⟩
      obtain ⟨h1, h2⟩ := hbalb x X hx
      unfold Near popOf
      rw [abs_le]
      constructor <;> linarith
    · unfold landsOn
      simp only [hb, decide_eq_true_eq]
      exact eq_comm

/-- the probabilities of the moves from a plan add up to one -/
theorem sum_transition (hG : G.WF) (hN : 0 < N) (hbound : ∀ U ⊆ G.nodes, ∀ E ∈ treeSets (G.subgraph U), (balancedEdges U E pop target eps).card ≤ bound)
    (ha : a.Coherent) (hp : IsPlan G pop target eps k a.plan) (hk : 0 < k) (hroom : RoomToCut G a.plan) (fuel : ℕ) (hf : 0 < fuel) (L : ℕ) :
    ∑ Q ∈ plans G pop target eps k, transition N L bound fuel G pop target eps a Q = 1 := by
  have hpoint : ∀ w : Tape, ∑ Q ∈ plans G pop target eps k, (if landsOn a Q (revMove N bound fuel G a pop target eps w).1 = true then (1 : ℚ) else 0) = 1 := by
    intro w
    obtain ⟨r, w', hr⟩ := move_total hG hN hbound ha hp hk hroom fuel hf w
    obtain ⟨Q, hQ, huniq⟩ := move_lands hG hN ha hp fuel hr
    rw [hr, Finset.sum_eq_single_of_mem Q hQ, if_pos ((huniq Q).2 rfl)]
    intro Q' _ hne
    rw [if_neg (fun h' => hne ((huniq Q').1 h'))]
  rw [← avg_const hN L 1, ← avg_congr N L hpoint]
  unfold transition prob avg
  rw [← Finset.sum_div, Finset.sum_comm]

end setup

/-- **C74** (stationary distribution) Let `reversible_recom` draw an ideal uniform spanning tree.  If the current plan is drawn with probability proportional
to the product of the numbers of spanning trees of its districts, so is the plan after the move.  `rep` gives the districts of every plan labels.
The move is undefined, because an exception ends the chain, if two adjacent districts have only two nodes together; the theorem assumes that no plan has such
districts. -/
theorem C74_stationary (G : Graph V) (hG : G.WF) (pop : V → ℚ) (target eps : ℚ) (k : ℕ) (hk : 0 < k) (bound : ℕ)
    (hbound : ∀ U ⊆ G.nodes, ∀ E ∈ treeSets (G.subgraph U), (balancedEdges U E pop target eps).card ≤ bound)
    (hroom : ∀ Q ∈ plans G pop target eps k, RoomToCut G Q)
    (rep : Finset (Finset V) → Assignment V P) (hrep : ∀ Q ∈ plans G pop target eps k, (rep Q).Coherent ∧ (rep Q).plan = Q)
    (fuel : ℕ) (hf : 0 < fuel) (N : ℕ) (hN : 0 < N) (hdiv : (G.nodes.card ^ 2 + 2 ^ G.edges.card + bound * G.edges.card).factorial ∣ N)
    (L : ℕ) (hL : 6 + 2 * G.nodes.card ≤ L) (Q : Finset (Finset V)) (hQ : Q ∈ plans G pop target eps k) :
    ∑ Q' ∈ plans G pop target eps k, treeWeight G Q' * transition N L bound fuel G pop target eps (rep Q') Q = treeWeight G Q := by
  have hplan : ∀ Q ∈ plans G pop target eps k, IsPlan G pop target eps k (rep Q).plan := by
    intro Q hQ
    rw [(hrep Q hQ).2]
    exact mem_plans.1 hQ
  have hbal : ∀ Q' ∈ plans G pop target eps k, treeWeight G Q' * transition N L bound fuel G pop target eps (rep Q') Q =
      treeWeight G Q * transition N L bound fuel G pop target eps (rep Q) Q' := by
    intro Q' hQ'
    by_cases hne : Q' = Q
    · rw [hne]
    obtain ⟨k1, k2⟩ := hrep Q' hQ'
    obtain ⟨k3, k4⟩ := hrep Q hQ
    obtain ⟨c1, d1⟩ := labelled k1 (hplan Q' hQ')
    obtain ⟨c2, d2⟩ := labelled k3 (hplan Q hQ)
    have := C56_detailed_balance G hG pop target eps bound hbound (rep Q') (rep Q) k1 k3 c1 c2 d1 d2
      (fun X hX => ((hplan Q' hQ').2.2 X hX).2) (fun X hX => ((hplan Q hQ).2.2 X hX).2) (by rw [k2, k4]; exact hne) fuel hf N hN hdiv L hL
    rw [k2, k4] at this
    unfold treeWeight
    linarith
  rw [Finset.sum_congr rfl hbal, ← Finset.mul_sum, sum_transition hG hN hbound (hrep Q hQ).1 (hplan Q hQ) hk ?_ fuel hf L, mul_one]
  rw [(hrep Q hQ).2]
  exact hroom Q hQ

/-- **C74** (balanced flow, with Wilson's algorithm) With the code's own spanning tree method: as much probability flows from the other plans into a plan as
flows out of it, in the limit of long tapes. -/
theorem C74_balanced_flow (G : Graph V) (hG : G.WF) (pop : V → ℚ) (target eps : ℚ) (k : ℕ) (bound : ℕ)
    (hbound : ∀ U ⊆ G.nodes, ∀ E ∈ treeSets (G.subgraph U), (balancedEdges U E pop target eps).card ≤ bound)
    (rep : Finset (Finset V) → Assignment V P) (hrep : ∀ Q ∈ plans G pop target eps k, (rep Q).Coherent ∧ (rep Q).plan = Q)
    (N : ℕ) (hN : 0 < N) (hdiv : (G.nodes.card ^ 2 + 2 ^ G.edges.card + bound * G.edges.card).factorial ∣ N)
    (Q : Finset (Finset V)) (hQ : Q ∈ plans G pop target eps k) (δ : ℚ) (hδ : 0 < δ) :
    ∃ L0, ∀ L fuel, L0 ≤ L → L ≤ fuel →
      |∑ Q' ∈ (plans G pop target eps k).erase Q, treeWeight G Q' * wilsonTransition N L bound fuel G pop target eps (rep Q') Q -
        ∑ Q' ∈ (plans G pop target eps k).erase Q, treeWeight G Q * wilsonTransition N L bound fuel G pop target eps (rep Q) Q'| ≤ δ := by
  have hplan : ∀ Q ∈ plans G pop target eps k, IsPlan G pop target eps k (rep Q).plan := by
    intro Q hQ
    rw [(hrep Q hQ).2]
    exact mem_plans.1 hQ
  set n : ℚ := (((plans G pop target eps k).erase Q).card : ℚ) with hn
  have hn0 : 0 ≤ n := by positivity
  have hbal : ∀ Q' ∈ (plans G pop target eps k).erase Q, ∃ L0, ∀ L, L0 ≤ L → ∀ fuel, L ≤ fuel →
      |treeWeight G Q' * wilsonTransition N L bound fuel G pop target eps (rep Q') Q -
        treeWeight G Q * wilsonTransition N L bound fuel G pop target eps (rep Q) Q'| ≤ δ / (n + 1) := by
    intro Q' hQ'
    obtain ⟨hne, hQ'⟩ := Finset.mem_erase.1 hQ'
    obtain ⟨k1, k2⟩ := hrep Q' hQ'
    obtain ⟨k3, k4⟩ := hrep Q hQ
    obtain ⟨c1, d1⟩ := labelled k1 (hplan Q' hQ')
    obtain ⟨c2, d2⟩ := labelled k3 (hplan Q hQ)
    obtain ⟨L0, h0⟩ := C56_wilson_balance G hG pop target eps bound hbound (rep Q') (rep Q) k1 k3 c1 c2 d1 d2
      (fun X hX => ((hplan Q' hQ').2.2 X hX).2) (fun X hX => ((hplan Q hQ).2.2 X hX).2) (by rw [k2, k4]; exact hne) N hN hdiv (δ / (n + 1)) (by positivity)
    rw [k2, k4] at h0
    refine ⟨L0, fun L hL fuel hf => ?_⟩
    have := h0 L fuel hL hf
    unfold treeWeight
    rw [mul_comm, mul_comm ((∏ X ∈ Q, numTrees G X : ℕ) : ℚ)]
    exact this
  obtain ⟨L0, h0⟩ := uniform_bound _ hbal
  refine ⟨L0, fun L fuel hL hf => ?_⟩
  rw [← Finset.sum_sub_distrib]
  refine (Finset.abs_sum_le_sum_abs _ _).trans ((Finset.sum_le_sum (fun Q' hQ' => h0 Q' hQ' L hL fuel hf)).trans ?_)
  rw [Finset.sum_const, nsmul_eq_mul, ← hn, mul_div_assoc', div_le_iff₀ (by positivity)]
  nlinarith

/-! ### A concrete case: the square -/

/-- the square has exactly two plans with two districts of two nodes -/
theorem ring_plans (Q : Finset (Finset (Fin 4))) : Q ∈ plans ringGraph (fun _ => 1) 2 0 2 ↔ Q = ringA.plan ∨ Q = ringB.plan := by
  obtain ⟨hwf, hcovA, hcovB, hne, nearA, nearB, -⟩ := ring_positive
  rw [mem_plans]
  constructor
  · rintro ⟨hpart, hcard, hall⟩
    have hsize : ∀ X ∈ Q, X.card = 2 := by
      intro X hX
      have := (hall X hX).2
      unfold Near popOf at this
      rw [zero_mul, abs_nonpos_iff, sub_eq_zero, Finset.sum_const, nsmul_eq_mul, mul_one] at this
      exact_mod_cast this
    obtain ⟨X, hX, h0⟩ := (hpart.cover 0).1 (Finset.mem_univ _)
    have hc : nxIsConnected (ringGraph.subgraph X) = .ok true := by
      rw [nxIsConnected_true (hwf.subgraph X)]
      exact (connectedOn_subgraph (Finset.subset_univ X)).2 (hall X hX).1
    have hdec : ∀ X : Finset (Fin 4), 0 ∈ X → X.card = 2 → nxIsConnected (ringGraph.subgraph X) = .ok true → X = {0, 1} ∨ X = {0, 3} := by
      decide +kernel
    obtain ⟨Y, Z, hYZ, hQ⟩ := Finset.card_eq_two.1 hcard
    have hother : ∃ Y, Y ∈ Q ∧ Y ≠ X ∧ Q = {X, Y} := by
      rw [hQ] at hX
      rw [Finset.mem_insert, Finset.mem_singleton] at hX
      rcases hX with rfl | rfl
      · exact ⟨Z, by rw [hQ]; simp, hYZ.symm, hQ⟩
      · exact ⟨Y, by rw [hQ]; simp, hYZ, by rw [hQ, Finset.pair_comm]⟩
    obtain ⟨Y, hY, hYX, hQ⟩ := hother
    have hYc : Y = Xᶜ := by
      ext x
      rw [Finset.mem_compl]
      constructor
      · intro hx hx'
        exact hYX (hpart.disj Y hY X hX x hx hx')
      · intro hx
        obtain ⟨W, hW, hxW⟩ := (hpart.cover x).1 (Finset.mem_univ _)
        rw [hQ, Finset.mem_insert, Finset.mem_singleton] at hW
        rcases hW with rfl | rfl
        · exact absurd hxW hx
        · exact hxW
    rw [hQ, hYc]
    rcases hdec X h0 (hsize X hX) hc with rfl | rfl
    · left; decide +kernel
    · right; decide +kernel
  · have hpA := isPartition_plan ring_coherent.1 hcovA ring_contiguous.1
    have hpB := isPartition_plan ring_coherent.2 hcovB ring_contiguous.2
    rintro (rfl | rfl)
    · refine ⟨hpA, by decide +kernel, fun X hX => ⟨?_, nearA X hX⟩⟩
      obtain ⟨p, hp⟩ := (mem_plan ring_coherent.1).1 hX
      exact ring_contiguous.1 p X hp
    · refine ⟨hpB, by decide +kernel, fun X hX => ⟨?_, nearB X hX⟩⟩
      obtain ⟨p, hp⟩ := (mem_plan ring_coherent.2).1 hX
      exact ring_contiguous.2 p X hp

/-- the hypotheses of C74 hold for the square -/
example : ∀ Q ∈ plans ringGraph (fun _ => 1) 2 0 2, ∑ Q' ∈ plans ringGraph (fun _ => 1) 2 0 2,
    treeWeight ringGraph Q' * transition (Nat.factorial 44) 14 3 1 ringGraph (fun _ => 1) 2 0 (if Q' = ringA.plan then ringA else ringB) Q =
      treeWeight ringGraph Q := by
  obtain ⟨hwf, hcovA, hcovB, hne, nearA, nearB, -⟩ := ring_positive
  refine C74_stationary ringGraph hwf (fun _ => 1) 2 0 2 (by norm_num) 3 ring_bound ?_ _ ?_ 1 Nat.one_pos _ (Nat.factorial_pos _) ?_ 14 (by decide)
  · intro Q hQ s hs t ht hst _
    rw [mem_plans] at hQ
    have hsize : ∀ X ∈ Q, X.card = 2 := by
      intro X hX
      have := (hQ.2.2 X hX).2
      unfold Near popOf at this
      rw [zero_mul, abs_nonpos_iff, sub_eq_zero, Finset.sum_const, nsmul_eq_mul, mul_one] at this
      exact_mod_cast this
    have hd : Disjoint s t := by
      rw [Finset.disjoint_left]
      exact fun x hx hx' => hst (hQ.1.disj s hs t ht x hx hx')
    rw [Finset.card_union_of_disjoint hd, hsize s hs, hsize t ht]
    norm_num
  · intro Q hQ
    rcases (ring_plans Q).1 hQ with h | h
    · rw [if_pos h]
      exact ⟨ring_coherent.1, h.symm⟩
    · rw [if_neg (fun h' => hne (h'.symm.trans h))]
      exact ⟨ring_coherent.2, h.symm⟩
  · have : ringGraph.nodes.card ^ 2 + 2 ^ ringGraph.edges.card + 3 * ringGraph.edges.card = 44 := by decide
    rw [this]

end GC

import Verif.Props.RecomLaw
import Verif.Lemmas.KruskalOrders

/-!
# The transition probabilities of `recom` with its default arguments (C98)

`recom` with `random_spanning_tree`, the default of `bipartition_tree`: the spanning trees have the probabilities of C97, which are not equal.  The formula
for the transition probabilities is the one of C95 with these probabilities.  In contrast to uniform spanning trees (C95), `recom` is not reversible.
-/

set_option linter.unusedSectionVars false
set_option autoImplicit false

namespace GC

open Finset

variable {V P : Type} [LinearOrder V] [LinearOrder P]

/-- `random_spanning_tree` (gerrychain/tree.py:60-94) without `region_surcharge`; the attributes of the nodes are not looked at -/
def kruskalSpan (N : ℕ) (H : Graph V) : M Tape (WTree V) := randomSpanningTree (uniRand N) (fun _ _ => (none : Option Unit)) none H

open Classical in
/-- the probability that `random_spanning_tree` returns this tree of the subgraph on `U` -/
noncomputable def treeChance (N : ℕ) (G : Graph V) (U : Finset V) (E : Finset (V × V)) : ℚ :=
  prob N G.edges.card (kruskalSpan N (G.subgraph U)) (ReturnsTree (G.subgraph U) E)

/-- the probability that `recom` (proposals/tree_proposals.py:36-146) with its default method `bipartition_tree` (gerrychain/tree.py:581-718) moves from the
plan `a` to a plan with the districts `Q`; `node_repeats=r` and `max_attempts=m` -/
noncomputable def kruskalChance (N L r m fuel : ℕ) (G : Graph V) (pop : V → ℚ) (target eps : ℚ) (a : Assignment V P) (Q : Finset (Finset V)) : ℚ :=
  spanChance (kruskalSpan N) N L r m fuel G pop target eps a Q

theorem subgraph_edges_card (G : Graph V) (U : Finset V) : (G.subgraph U).edges.card ≤ G.edges.card :=
  Finset.card_le_card (Finset.filter_subset _ _)

theorem kruskal_treeLaw {N : ℕ} {G : Graph V} (hG : G.WF) (hN : 0 < N) : TreeLaw N G.edges.card G (kruskalSpan N) (treeChance N G) := by
  classical
  refine ⟨fun U hU hconn => ?_⟩
  have hn := subgraph_nodes hU
  have hconn' : ConnectedOn (G.subgraph U) (G.subgraph U).nodes := (connectedOn_subgraph (G := G) hU).2 hconn
  have hret : ∀ w, ∃ t w', kruskalSpan N (G.subgraph U) w = (.ok t, w') ∧ t.graph.nodes = U ∧ t.graph.edges ∈ treeSets (G.subgraph U) := by
    intro w
    obtain ⟨t, w', h1, h2, h3, -⟩ := C97_lightest (uniRand_valid hN) (fun _ _ => (none : Option Unit)) none (G.subgraph U) (hG.subgraph U) hconn' w
    exact ⟨t, w', h1, by rw [h2, hn], h3⟩
  refine ⟨hN, (draws_randomSpanningTree N _ _ _).mono (subgraph_edges_card G U), hret, ?_⟩
  intro E hE
  unfold treeChance prob
  refine avg_congr N _ (fun w => ?_)
  obtain ⟨t, w', h1, h2, h3⟩ := hret w
  rw [h1]
  refine if_congr ?_ rfl rfl
  show decide (t.graph.edges = E) = true ↔ ReturnsTree (G.subgraph U) E (.ok t)
  rw [decide_eq_true_iff]
  constructor
  · intro h
    exact ⟨t, rfl, by rw [hn, ← h2, ← h]⟩
  · rintro ⟨t', h, h'⟩
    cases h
    rw [h']

/-! ### The theorems -/

/-- **C98 (the trees).**  The probabilities in the formulas: up to the probability that two random numbers are equal, `treeChance` is the share of the orders
of the edges of the merged districts for which the tree is the lightest. -/
theorem C98_tree_chance (G : Graph V) (hG : G.WF) (U : Finset V) (hU : U ⊆ G.nodes) (hconn : ConnectedOn G U) (E : Finset (V × V)) (N : ℕ) (hN : 0 < N) :
    |treeChance N G U E - (lightestOrders (G.subgraph U) E : ℚ) / (G.subgraph U).edges.card.factorial|
      ≤ ((G.subgraph U).edges.card : ℚ) * ((G.subgraph U).edges.card - 1) / (2 * N) := by
  have hconn' : ConnectedOn (G.subgraph U) (G.subgraph U).nodes := (connectedOn_subgraph (G := G) hU).2 hconn
  exact C97_law _ (G.subgraph U) (hG.subgraph U) hconn' E N hN _ (subgraph_edges_card G U)

/-- **C98 (transition probabilities).**  Let the plan `a` and the partition `Q` differ in the districts `s`, `t` of `a` and `A`, `B` of `Q`.  The probability
that `recom` with its default arguments moves from `a` to a plan with the districts `Q` is the share of the edges between `s` and `t` among the cut edges, times
the sum over the spanning trees of the merged districts with one edge between `A` and `B` of their probability over the number of their balanced edges, divided
by the probability of a tree with a balanced edge, times the probability that the attempts see such a tree. -/
theorem C98_transition_formula (G : Graph V) (a : Assignment V P) (N r : ℕ) (h : RecomSetup N r G a) (pop : V → ℚ) (target eps : ℚ) (m : ℕ)
    (Q : Finset (Finset V)) (hQ : IsPartition G.nodes Q) (s t A B : Finset V) (hst : s ≠ t) (hAB : A ≠ B) (h1 : a.plan \ Q = {s, t})
    (h2 : Q \ a.plan = {A, B}) (nA : Near target eps (popOf pop A)) (nB : Near target eps (popOf pop B))
    (fuel : ℕ) (hf : 0 < fuel) (L : ℕ) (hL : 3 + m * (G.edges.card + (1 + 2 * G.nodes.card)) ≤ L) :
    kruskalChance N L r m fuel G pop target eps a Q = (seamOf G s t).card / ((cutsOf G a.mapping).card : ℚ) *
      (splitChance G pop target eps (treeChance N G) A B / cutChance G pop target eps (treeChance N G) (s ∪ t) *
        seenChance r m G pop target eps (treeChance N G) (s ∪ t)) :=
  span_transition_formula h (kruskal_treeLaw h.wf h.pos) Q hQ s t A B hst hAB h1 h2 nA nB fuel hf L hL

/-- **C98 (two districts).**  With two districts the probability of the next plan does not depend on the present one. -/
theorem C98_two_districts (G : Graph V) (a : Assignment V P) (N r : ℕ) (h : RecomSetup N r G a) (pop : V → ℚ) (target eps : ℚ) (m : ℕ)
    (h2 : a.plan.card = 2) (h3 : 3 ≤ G.nodes.card) (hconn : ConnectedOn G G.nodes)
    (A B : Finset V) (hAB : Disjoint A B) (hU : A ∪ B = G.nodes) (hA0 : A.Nonempty) (hB0 : B.Nonempty)
    (nA : Near target eps (popOf pop A)) (nB : Near target eps (popOf pop B))
    (fuel : ℕ) (hf : 0 < fuel) (L : ℕ) (hL : 3 + m * (G.edges.card + (1 + 2 * G.nodes.card)) ≤ L) :
    kruskalChance N L r m fuel G pop target eps a {A, B} =
      splitChance G pop target eps (treeChance N G) A B / cutChance G pop target eps (treeChance N G) G.nodes *
        seenChance r m G pop target eps (treeChance N G) G.nodes :=
  span_two_districts h (kruskal_treeLaw h.wf h.pos) h2 h3 hconn A B hAB hU hA0 hB0 nA nB fuel hf L hL

/-- **C98 (no other moves).**  A move from `a` changes exactly two districts. -/
theorem C98_no_other_move (G : Graph V) (a : Assignment V P) (N r : ℕ) (h : RecomSetup N r G a) (pop : V → ℚ) (target eps : ℚ) (m : ℕ)
    (Q : Finset (Finset V)) (hne : a.plan ≠ Q) (h2 : ¬ ((a.plan \ Q).card = 2 ∧ (Q \ a.plan).card = 2))
    (fuel : ℕ) (hf : 0 < fuel) (L : ℕ) (hL : 3 + m * (G.edges.card + (1 + 2 * G.nodes.card)) ≤ L) :
    kruskalChance N L r m fuel G pop target eps a Q = 0 :=
  span_no_other_move h (kruskal_treeLaw h.wf h.pos) Q hne h2 fuel hf L hL

/-! ### Small tolerances -/

section small

variable {N : ℕ} {G : Graph V} {pop : V → ℚ} {target eps : ℚ} {A B : Finset V}

theorem splitChance_small (hG : G.WF) (hAB : Disjoint A B) (hA : A ⊆ G.nodes) (hB : B ⊆ G.nodes) (hA0 : A.Nonempty)
    (hB0 : B.Nonempty) (nA : Near target eps (popOf pop A)) (nB : Near target eps (popOf pop B)) (hs : SmallTolerance G pop target eps)
    (μ : Finset V → Finset (V × V) → ℚ) :
    splitChance G pop target eps μ A B = ∑ E ∈ (treeSets (G.subgraph (A ∪ B))).filter (fun E => (E ∩ seamOf G A B).card = 1), μ (A ∪ B) E := by
  unfold splitChance
  refine Finset.sum_congr rfl (fun E hE => ?_)
  obtain ⟨h1, h2⟩ := Finset.mem_filter.1 hE
  have := seam_balanced hG hAB hA hB hA0 hB0 nA nB h1 h2
  have := hs.card_le_one (Finset.union_subset hA hB) h1
  have : (balancedEdges (A ∪ B) E pop target eps).card = 1 := by omega
  rw [this]
  norm_num

/-- the probability of a property of the tree, as a share of the random numbers -/
theorem sum_treeChance (hG : G.WF) (hN : 0 < N) {U : Finset V} (hU : U ⊆ G.nodes) (hconn : ConnectedOn G U) (p : Finset (V × V) → Prop) [DecidablePred p] :
    ∑ E ∈ (treeSets (G.subgraph U)).filter p, treeChance N G U E =
      (#{τ : Fin (iterE (G.subgraph U).edges).length → Fin N | p (tapeTree (iterE (G.subgraph U).edges) (fun i => (τ i : ℕ)))} : ℚ) /
        (N : ℚ) ^ (iterE (G.subgraph U).edges).length := by
  classical
  have hconn' : ConnectedOn (G.subgraph U) (G.subgraph U).nodes := (connectedOn_subgraph (G := G) hU).2 hconn
  have h1 : ∀ E, treeChance N G U E = (#{τ : Fin (iterE (G.subgraph U).edges).length → Fin N |
      tapeTree (iterE (G.subgraph U).edges) (fun i => (τ i : ℕ)) = E} : ℚ) / (N : ℚ) ^ (iterE (G.subgraph U).edges).length :=
    fun E => prob_tree _ (G.subgraph U) E hN (subgraph_edges_card G U)
  simp only [h1]
  rw [← Finset.sum_div]
  congr 1
  rw [← Nat.cast_sum]
  congr 1
  set D : Finset (Fin (iterE (G.subgraph U).edges).length → Fin N) := univ.filter (fun τ => p (tapeTree (iterE (G.subgraph U).edges) (fun i => (τ i : ℕ)))) with hD
  rw [Finset.card_eq_sum_card_fiberwise (s := D) (t := (treeSets (G.subgraph U)).filter p)
    (f := fun τ => tapeTree (iterE (G.subgraph U).edges) (fun i => (τ i : ℕ)))
    (fun τ hτ => by
      rw [Finset.mem_coe, Finset.mem_filter]
      exact ⟨greedy_mem_treeSets (hG.subgraph U) hconn' (byWeight_mem (fun e => mem_iterE)), (Finset.mem_filter.1 hτ).2⟩)]
  refine Finset.sum_congr rfl (fun E hE => ?_)
  congr 1
  ext τ
  rw [Finset.mem_filter, Finset.mem_filter, hD, Finset.mem_filter]
  constructor
  · rintro ⟨h, rfl⟩
    exact ⟨⟨h, (Finset.mem_filter.1 hE).2⟩, rfl⟩
  · rintro ⟨⟨h, -⟩, h'⟩
    exact ⟨h, h'⟩

/-- the probability of a split: the share of the orders of the edges -/
theorem split_close (hG : G.WF) (hN : 0 < N) (hAB : Disjoint A B) (hA : A ⊆ G.nodes) (hB : B ⊆ G.nodes) (hA0 : A.Nonempty)
    (hB0 : B.Nonempty) (hconn : ConnectedOn G (A ∪ B)) (nA : Near target eps (popOf pop A)) (nB : Near target eps (popOf pop B))
    (hs : SmallTolerance G pop target eps) {es : List (V × V)} (hes : iterE (G.subgraph (A ∪ B)).edges = es) {k n : ℕ} (hn : es.length = n)
    (hk : es.permutations'.countP (fun o => decide ((greedyTree o ∩ seamOf G A B).card = 1)) = k) :
    |splitChance G pop target eps (treeChance N G) A B - (k : ℚ) / n.factorial| ≤ (n : ℚ) * (n - 1) / (2 * N) := by
  subst hes hn hk
  have h2 := share_close hN (fun τ => (tapeTree (iterE (G.subgraph (A ∪ B)).edges) τ ∩ seamOf G A B).card = 1)
    (fun τ τ' h => by rw [tapeTree_congr (nodup_iterE _) h])
  rw [splitChance_small hG hAB hA hB hA0 hB0 nA nB hs, sum_treeChance hG hN (Finset.union_subset hA hB) hconn,
    ← card_orders (nodup_iterE _) (fun E => (E ∩ seamOf G A B).card = 1)]
  convert h2

/-- a split needs a balanced edge -/
theorem splitChance_le (hG : G.WF) (hN : 0 < N) (hAB : Disjoint A B) (hA : A ⊆ G.nodes) (hB : B ⊆ G.nodes) (hA0 : A.Nonempty)
    (hB0 : B.Nonempty) (hconn : ConnectedOn G (A ∪ B)) (nA : Near target eps (popOf pop A)) (nB : Near target eps (popOf pop B))
    (hs : SmallTolerance G pop target eps) :
    splitChance G pop target eps (treeChance N G) A B ≤ cutChance G pop target eps (treeChance N G) (A ∪ B) := by
  classical
  have hl := (kruskal_treeLaw hG hN).on _ (Finset.union_subset hA hB) hconn
  rw [splitChance_small hG hAB hA hB hA0 hB0 nA nB hs]
  unfold cutChance
  refine Finset.sum_le_sum_of_subset_of_nonneg ?_ (fun E hE _ => hl.nonneg (Finset.mem_filter.1 hE).1)
  intro E hE
  obtain ⟨h1, h2⟩ := Finset.mem_filter.1 hE
  have := seam_balanced hG hAB hA hB hA0 hB0 nA nB h1 h2
  refine Finset.mem_filter.2 ⟨h1, fun h0 => ?_⟩
  rw [h0] at this
  exact absurd this (by simp)

theorem cutChance_le_one (hG : G.WF) (hN : 0 < N) {U : Finset V} (hU : U ⊆ G.nodes) (hconn : ConnectedOn G U) :
    cutChance G pop target eps (treeChance N G) U ≤ 1 := by
  classical
  have hl := (kruskal_treeLaw hG hN).on _ hU hconn
  rw [← hl.sum]
  unfold cutChance
  exact Finset.sum_le_sum_of_subset_of_nonneg (Finset.filter_subset _ _) (fun E hE _ => hl.nonneg hE)

theorem seenChance_pos {r m : ℕ} (hr : 0 < r) (hm : 0 < m) {μ : Finset V → Finset (V × V) → ℚ} {U : Finset V} (h0 : 0 < cutChance G pop target eps μ U)
    (h1 : cutChance G pop target eps μ U ≤ 1) : 0 < seenChance r m G pop target eps μ U := by
  unfold seenChance
  have hk : (m + r - 1) / r ≠ 0 := by
    have : 1 ≤ (m + r - 1) / r := (Nat.le_div_iff_mul_le hr).2 (by omega)
    omega
  have := pow_lt_one₀ (a := 1 - cutChance G pop target eps μ U) (by linarith) (by linarith) hk
  linarith

end small

/-! ### `recom` is not reversible -/

/-- seven nodes and ten edges -/
def wheelGraph : Graph (Fin 7) := ⟨Finset.univ, {(0, 1), (0, 2), (0, 3), (0, 5), (0, 6), (1, 2), (1, 3), (2, 4), (3, 5), (4, 6)}⟩

/-- the nodes 3 and 4 have two people, the others have one -/
def wheelPop (v : Fin 7) : ℚ := if v = 3 ∨ v = 4 then 2 else 1

/-- the districts 056, 13 and 24 -/
def wheelA : Assignment (Fin 7) (Fin 3) :=
  ⟨⟨[(0, {0, 5, 6}), (1, {1, 3}), (2, {2, 4})]⟩, ⟨[(0, 0), (1, 1), (2, 2), (3, 1), (4, 2), (5, 0), (6, 0)]⟩⟩

/-- the districts 025, 13 and 46 -/
def wheelB : Assignment (Fin 7) (Fin 3) :=
  ⟨⟨[(0, {0, 2, 5}), (1, {1, 3}), (2, {4, 6})]⟩, ⟨[(0, 0), (1, 1), (2, 0), (3, 1), (4, 2), (5, 0), (6, 2)]⟩⟩

/-- the districts 012, 35 and 46 -/
def wheelC : Assignment (Fin 7) (Fin 3) :=
  ⟨⟨[(0, {0, 1, 2}), (1, {3, 5}), (2, {4, 6})]⟩, ⟨[(0, 0), (1, 0), (2, 0), (3, 1), (4, 2), (5, 1), (6, 2)]⟩⟩

/-- the districts 016, 35 and 24 -/
def wheelD : Assignment (Fin 7) (Fin 3) :=
  ⟨⟨[(0, {0, 1, 6}), (1, {3, 5}), (2, {2, 4})]⟩, ⟨[(0, 0), (1, 0), (2, 2), (3, 1), (4, 2), (5, 1), (6, 0)]⟩⟩

theorem wheel_wf : wheelGraph.WF := ⟨by decide, by decide, by decide⟩

theorem wheel_connected (s : Finset (Fin 7)) (hs : nxIsConnected (wheelGraph.subgraph s) = .ok true) : ConnectedOn wheelGraph s := by
  rw [nxIsConnected_true (wheel_wf.subgraph s)] at hs
  exact (connectedOn_subgraph (Finset.subset_univ s)).1 hs

theorem wheel_small : SmallTolerance wheelGraph wheelPop 3 0 := by unfold SmallTolerance; decide +kernel

theorem wheel_setup {N r : ℕ} (hN : 0 < N) (hd : (2 ^ 10).factorial ∣ N) (hr : 0 < r) (a : Assignment (Fin 7) (Fin 3))
    (ha : a = wheelA ∨ a = wheelB ∨ a = wheelC ∨ a = wheelD) : RecomSetup N r wheelGraph a := by
  refine ⟨wheel_wf, hN, hd, hr, ?_, ?_, ?_⟩
  · rcases ha with rfl | rfl | rfl | rfl
    all_goals
      refine ⟨by unfold Dict.WF; decide, by unfold Dict.WF; decide, ?_, by decide⟩
      intro p s hs
      fin_cases p <;> cases hs <;> decide
  · rcases ha with rfl | rfl | rfl | rfl <;> unfold Assignment.Covers <;> decide
  · rcases ha with rfl | rfl | rfl | rfl
    all_goals
      intro p s hs
      fin_cases p <;> cases hs <;> exact wheel_connected _ (by decide +kernel)

/-- the orders of the edges of the merged districts `A ∪ B` for which the lightest tree has one edge between `A` and `B` -/
def splitOrders (G : Graph V) (A B : Finset V) : ℕ :=
  (iterE (G.subgraph (A ∪ B)).edges).permutations'.countP (fun o => decide ((greedyTree o ∩ seamOf G A B).card = 1))

set_option maxRecDepth 100000 in
theorem wheel_orders_AB : splitOrders wheelGraph {4, 6} {0, 2, 5} = 60 := by decide +kernel

set_option maxRecDepth 100000 in
theorem wheel_orders_BA : splitOrders wheelGraph {2, 4} {0, 5, 6} = 60 := by decide +kernel

set_option maxRecDepth 100000 in
theorem wheel_orders_BC : splitOrders wheelGraph {3, 5} {0, 1, 2} = 2156 := by decide +kernel

set_option maxRecDepth 100000 in
theorem wheel_orders_CB : splitOrders wheelGraph {1, 3} {0, 2, 5} = 904 := by decide +kernel

set_option maxRecDepth 100000 in
theorem wheel_orders_CD : splitOrders wheelGraph {2, 4} {0, 1, 6} = 188 := by decide +kernel

set_option maxRecDepth 100000 in
theorem wheel_orders_DC : splitOrders wheelGraph {4, 6} {0, 1, 2} = 408 := by decide +kernel

set_option maxRecDepth 100000 in
theorem wheel_orders_DA : splitOrders wheelGraph {1, 3} {0, 5, 6} = 264 := by decide +kernel

set_option maxRecDepth 100000 in
theorem wheel_orders_AD : splitOrders wheelGraph {3, 5} {0, 1, 6} = 264 := by decide +kernel

/-- the random numbers are many, so that equal ones hardly occur -/
theorem many_numbers {N : ℕ} (hN : 0 < N) (hd : (2 ^ 10).factorial ∣ N) : (3628800 : ℚ) ≤ N := by
  have h1 : (10 : ℕ).factorial ≤ (2 ^ 10).factorial := Nat.factorial_le (by norm_num)
  have h2 := Nat.le_of_dvd hN hd
  have h3 : (10 : ℕ).factorial = 3628800 := by decide
  have : 3628800 ≤ N := by omega
  exact_mod_cast this

/-- one split of two of the districts -/
theorem wheel_split {N : ℕ} (hN : 0 < N) (hd : (2 ^ 10).factorial ∣ N) {A B : Finset (Fin 7)} (hAB : Disjoint A B) (hA0 : A.Nonempty) (hB0 : B.Nonempty)
    (hconn : nxIsConnected (wheelGraph.subgraph (A ∪ B)) = .ok true) (nA : Near 3 0 (popOf wheelPop A)) (nB : Near 3 0 (popOf wheelPop B)) {k n : ℕ}
    (hk : splitOrders wheelGraph A B = k) (hn : (iterE (wheelGraph.subgraph (A ∪ B)).edges).length = n) (hn7 : n ≤ 7) :
    (k : ℚ) / n.factorial - 1 / 100000 ≤ splitChance wheelGraph wheelPop 3 0 (treeChance N wheelGraph) A B ∧
      splitChance wheelGraph wheelPop 3 0 (treeChance N wheelGraph) A B ≤ (k : ℚ) / n.factorial + 1 / 100000 := by
  have h := split_close wheel_wf hN hAB (Finset.subset_univ _) (Finset.subset_univ _) hA0 hB0 (wheel_connected _ hconn) nA nB wheel_small rfl hn hk
  have hN' := many_numbers hN hd
  have hb : (n : ℚ) * (n - 1) / (2 * N) ≤ 1 / 100000 := by
    have h7 : (n : ℚ) ≤ 7 := by exact_mod_cast hn7
    have h0 : (0 : ℚ) ≤ n := Nat.cast_nonneg n
    rw [div_le_iff₀ (by linarith)]
    have : (n : ℚ) * (n - 1) ≤ 42 := by nlinarith
    linarith
  rw [abs_le] at h
  exact ⟨by linarith [h.1], by linarith [h.2]⟩

theorem cycle_algebra {w1 w2 w3 w4 a1 a2 a3 a4 b1 b2 b3 b4 : ℚ} (h1 : w1 * a1 = w2 * b1) (h2 : w2 * a2 = w3 * b2) (h3 : w3 * a3 = w4 * b3)
    (h4 : w4 * a4 = w1 * b4) : w1 * (a1 * a2 * a3 * a4) = w1 * (b1 * b2 * b3 * b4) := by
  calc w1 * (a1 * a2 * a3 * a4) = (w1 * a1) * (a2 * a3 * a4) := by ring
    _ = (w2 * a2) * (b1 * a3 * a4) := by rw [h1]; ring
    _ = (w3 * a3) * (b1 * b2 * a4) := by rw [h2]; ring
    _ = (w4 * a4) * (b1 * b2 * b3) := by rw [h3]; ring
    _ = w1 * (b1 * b2 * b3 * b4) := by rw [h4]; ring

theorem wheel_cancel {x0 x1 x2 x3 y0 y1 y2 y3 k0 k1 k2 k3 f0 f1 f2 f3 : ℚ} (h0 : 0 < k0) (h1 : 0 < k1) (h2 : 0 < k2) (h3 : 0 < k3)
    (g0 : 0 < f0) (g1 : 0 < f1) (g2 : 0 < f2) (g3 : 0 < f3)
    (h : (2 : ℕ) / ((6 : ℕ) : ℚ) * (x0 / k0 * f0) * ((4 : ℕ) / ((6 : ℕ) : ℚ) * (x1 / k1 * f1)) *
        ((2 : ℕ) / ((5 : ℕ) : ℚ) * (x2 / k2 * f2)) * ((3 : ℕ) / ((6 : ℕ) : ℚ) * (x3 / k3 * f3)) =
      (2 : ℕ) / ((6 : ℕ) : ℚ) * (y0 / k0 * f0) * ((3 : ℕ) / ((5 : ℕ) : ℚ) * (y1 / k1 * f1)) *
        ((3 : ℕ) / ((6 : ℕ) : ℚ) * (y2 / k2 * f2)) * ((3 : ℕ) / ((6 : ℕ) : ℚ) * (y3 / k3 * f3))) :
    8 * (x0 * x1 * x2 * x3) = 9 * (y0 * y1 * y2 * y3) := by
  have hK : (f0 / k0) * (f1 / k1) * (f2 / k2) * (f3 / k3) ≠ 0 :=
    (mul_pos (mul_pos (mul_pos (div_pos g0 h0) (div_pos g1 h1)) (div_pos g2 h2)) (div_pos g3 h3)).ne'
  refine mul_left_cancel₀ hK ?_
  push_cast at h
  linear_combination (6 * 6 * 5 * 6 / 6) * h

theorem mul4_le {x0 x1 x2 x3 y0 y1 y2 y3 : ℚ} (p0 : 0 ≤ x0) (p1 : 0 ≤ x1) (p2 : 0 ≤ x2) (p3 : 0 ≤ x3) (h0 : x0 ≤ y0) (h1 : x1 ≤ y1) (h2 : x2 ≤ y2) (h3 : x3 ≤ y3) :
    x0 * x1 * x2 * x3 ≤ y0 * y1 * y2 * y3 :=
  mul_le_mul (mul_le_mul (mul_le_mul h0 h1 p1 (p0.trans h0)) h2 p2 (mul_nonneg (p0.trans h0) (p1.trans h1))) h3 p3
    (mul_nonneg (mul_nonneg (p0.trans h0) (p1.trans h1)) (p2.trans h2))

theorem wheel_near (a : Assignment (Fin 7) (Fin 3)) (ha : a = wheelA ∨ a = wheelB ∨ a = wheelC ∨ a = wheelD) :
    ∀ X ∈ a.plan, Near 3 0 (popOf wheelPop X) := by
  rcases ha with rfl | rfl | rfl | rfl <;> decide +kernel

/-- one move around the cycle -/
theorem wheel_move {N r m fuel L : ℕ} (hN : 0 < N) (hd : (2 ^ 10).factorial ∣ N) (hr : 0 < r) (hf : 0 < fuel) (hL : 3 + m * 25 ≤ L)
    {a b : Assignment (Fin 7) (Fin 3)} (ha : a = wheelA ∨ a = wheelB ∨ a = wheelC ∨ a = wheelD) (hb : b = wheelA ∨ b = wheelB ∨ b = wheelC ∨ b = wheelD)
    {s t A B : Finset (Fin 7)} (hst : s ≠ t) (hAB : A ≠ B) (h1 : a.plan \ b.plan = {s, t}) (h2 : b.plan \ a.plan = {A, B}) {k c : ℕ}
    (hk : (seamOf wheelGraph s t).card = k) (hc : (cutsOf wheelGraph a.mapping).card = c) {U : Finset (Fin 7)} (hU : s ∪ t = U) :
    kruskalChance N L r m fuel wheelGraph wheelPop 3 0 a b.plan = k / (c : ℚ) *
      (splitChance wheelGraph wheelPop 3 0 (treeChance N wheelGraph) A B / cutChance wheelGraph wheelPop 3 0 (treeChance N wheelGraph) U *
        seenChance r m wheelGraph wheelPop 3 0 (treeChance N wheelGraph) U) := by
  have mA : A ∈ b.plan := (Finset.mem_sdiff.1 (by rw [h2]; simp : A ∈ b.plan \ a.plan)).1
  have mB : B ∈ b.plan := (Finset.mem_sdiff.1 (by rw [h2]; simp : B ∈ b.plan \ a.plan)).1
  rw [C98_transition_formula wheelGraph a N r (wheel_setup hN hd hr a ha) wheelPop 3 0 m b.plan (wheel_setup (r := r) hN hd hr b hb).isPart s t A B hst hAB h1 h2
    (wheel_near b hb A mA) (wheel_near b hb B mB) fuel hf L hL, hk, hc, hU]

/-- **C98 (not reversible).**  On a graph with seven nodes, three districts and tolerance zero, `recom` with its default arguments is not reversible with
respect to any distribution: around a cycle of four plans the product of the transition probabilities in one direction is not the product in the other.
With uniform spanning trees it is reversible there (`C95_reversible`). -/
theorem C98_not_reversible (N r m fuel L : ℕ) (hN : 0 < N) (hd : (2 ^ 10).factorial ∣ N) (hr : 0 < r) (hm : 0 < m) (hf : 0 < fuel) (hL : 3 + m * 25 ≤ L) :
    ¬ ∃ w : Finset (Finset (Fin 7)) → ℚ, w wheelA.plan ≠ 0 ∧ ∀ a b : Assignment (Fin 7) (Fin 3), RecomSetup N r wheelGraph a → RecomSetup N r wheelGraph b →
      (∀ X ∈ a.plan, Near 3 0 (popOf wheelPop X)) → (∀ X ∈ b.plan, Near 3 0 (popOf wheelPop X)) →
      w a.plan * kruskalChance N L r m fuel wheelGraph wheelPop 3 0 a b.plan = w b.plan * kruskalChance N L r m fuel wheelGraph wheelPop 3 0 b a.plan := by
  rintro ⟨w, hw, hdb⟩
  have iA : wheelA = wheelA ∨ wheelA = wheelB ∨ wheelA = wheelC ∨ wheelA = wheelD := .inl rfl
  have iB : wheelB = wheelA ∨ wheelB = wheelB ∨ wheelB = wheelC ∨ wheelB = wheelD := .inr (.inl rfl)
  have iC : wheelC = wheelA ∨ wheelC = wheelB ∨ wheelC = wheelC ∨ wheelC = wheelD := .inr (.inr (.inl rfl))
  have iD : wheelD = wheelA ∨ wheelD = wheelB ∨ wheelD = wheelC ∨ wheelD = wheelD := .inr (.inr (.inr rfl))
  have bal : ∀ a b, (a = wheelA ∨ a = wheelB ∨ a = wheelC ∨ a = wheelD) → (b = wheelA ∨ b = wheelB ∨ b = wheelC ∨ b = wheelD) →
      w a.plan * kruskalChance N L r m fuel wheelGraph wheelPop 3 0 a b.plan = w b.plan * kruskalChance N L r m fuel wheelGraph wheelPop 3 0 b a.plan :=
    fun a b ha hb => hdb a b (wheel_setup hN hd hr a ha) (wheel_setup hN hd hr b hb) (wheel_near a ha) (wheel_near b hb)
  have hcyc := mul_left_cancel₀ hw (cycle_algebra (bal wheelA wheelB iA iB) (bal wheelB wheelC iB iC) (bal wheelC wheelD iC iD) (bal wheelD wheelA iD iA))
  have eAB := wheel_move (m := m) hN hd hr hf hL iA iB (s := {2, 4}) (t := {0, 5, 6}) (A := {4, 6}) (B := {0, 2, 5}) (by decide) (by decide)
    (by decide +kernel) (by decide +kernel) (k := 2) (c := 6) (by decide +kernel) (by decide +kernel) (U := {0, 2, 4, 5, 6}) (by decide)
  have sAB := wheel_split hN hd (A := {4, 6}) (B := {0, 2, 5}) (by decide) (by decide) (by decide) (by decide +kernel) (by decide +kernel) (by decide +kernel)
    wheel_orders_AB (n := 5) (by decide +kernel) (by decide)
  have eBA := wheel_move (m := m) hN hd hr hf hL iB iA (s := {4, 6}) (t := {0, 2, 5}) (A := {2, 4}) (B := {0, 5, 6}) (by decide) (by decide)
    (by decide +kernel) (by decide +kernel) (k := 2) (c := 6) (by decide +kernel) (by decide +kernel) (U := {0, 2, 4, 5, 6}) (by decide)
  have sBA := wheel_split hN hd (A := {2, 4}) (B := {0, 5, 6}) (by decide) (by decide) (by decide) (by decide +kernel) (by decide +kernel) (by decide +kernel)
    wheel_orders_BA (n := 5) (by decide +kernel) (by decide)
  have c0 : 0 < cutChance wheelGraph wheelPop 3 0 (treeChance N wheelGraph) {0, 2, 4, 5, 6} := by
    have h1 := splitChance_le (N := N) (A := {4, 6}) (B := {0, 2, 5}) wheel_wf hN (by decide) (Finset.subset_univ _) (Finset.subset_univ _) (by decide) (by decide)
      (wheel_connected _ (by decide +kernel)) (by decide +kernel) (by decide +kernel) wheel_small
    have h2 := sAB.1
    rw [show ({4, 6} ∪ {0, 2, 5} : Finset (Fin 7)) = {0, 2, 4, 5, 6} by decide] at h1
    norm_num [Nat.factorial] at h2
    linarith
  have d0 := seenChance_pos hr hm c0 (cutChance_le_one wheel_wf hN (Finset.subset_univ _) (wheel_connected _ (by decide +kernel)))
  have eBC := wheel_move (m := m) hN hd hr hf hL iB iC (s := {1, 3}) (t := {0, 2, 5}) (A := {3, 5}) (B := {0, 1, 2}) (by decide) (by decide)
    (by decide +kernel) (by decide +kernel) (k := 4) (c := 6) (by decide +kernel) (by decide +kernel) (U := {0, 1, 2, 3, 5}) (by decide)
  have sBC := wheel_split hN hd (A := {3, 5}) (B := {0, 1, 2}) (by decide) (by decide) (by decide) (by decide +kernel) (by decide +kernel) (by decide +kernel)
    wheel_orders_BC (n := 7) (by decide +kernel) (by decide)
  have eCB := wheel_move (m := m) hN hd hr hf hL iC iB (s := {3, 5}) (t := {0, 1, 2}) (A := {1, 3}) (B := {0, 2, 5}) (by decide) (by decide)
    (by decide +kernel) (by decide +kernel) (k := 3) (c := 5) (by decide +kernel) (by decide +kernel) (U := {0, 1, 2, 3, 5}) (by decide)
  have sCB := wheel_split hN hd (A := {1, 3}) (B := {0, 2, 5}) (by decide) (by decide) (by decide) (by decide +kernel) (by decide +kernel) (by decide +kernel)
    wheel_orders_CB (n := 7) (by decide +kernel) (by decide)
  have c1 : 0 < cutChance wheelGraph wheelPop 3 0 (treeChance N wheelGraph) {0, 1, 2, 3, 5} := by
    have h1 := splitChance_le (N := N) (A := {3, 5}) (B := {0, 1, 2}) wheel_wf hN (by decide) (Finset.subset_univ _) (Finset.subset_univ _) (by decide) (by decide)
      (wheel_connected _ (by decide +kernel)) (by decide +kernel) (by decide +kernel) wheel_small
    have h2 := sBC.1
    rw [show ({3, 5} ∪ {0, 1, 2} : Finset (Fin 7)) = {0, 1, 2, 3, 5} by decide] at h1
    norm_num [Nat.factorial] at h2
    linarith
  have d1 := seenChance_pos hr hm c1 (cutChance_le_one wheel_wf hN (Finset.subset_univ _) (wheel_connected _ (by decide +kernel)))
  have eCD := wheel_move (m := m) hN hd hr hf hL iC iD (s := {4, 6}) (t := {0, 1, 2}) (A := {2, 4}) (B := {0, 1, 6}) (by decide) (by decide)
    (by decide +kernel) (by decide +kernel) (k := 2) (c := 5) (by decide +kernel) (by decide +kernel) (U := {0, 1, 2, 4, 6}) (by decide)
  have sCD := wheel_split hN hd (A := {2, 4}) (B := {0, 1, 6}) (by decide) (by decide) (by decide) (by decide +kernel) (by decide +kernel) (by decide +kernel)
    wheel_orders_CD (n := 6) (by decide +kernel) (by decide)
  have eDC := wheel_move (m := m) hN hd hr hf hL iD iC (s := {2, 4}) (t := {0, 1, 6}) (A := {4, 6}) (B := {0, 1, 2}) (by decide) (by decide)
    (by decide +kernel) (by decide +kernel) (k := 3) (c := 6) (by decide +kernel) (by decide +kernel) (U := {0, 1, 2, 4, 6}) (by decide)
  have sDC := wheel_split hN hd (A := {4, 6}) (B := {0, 1, 2}) (by decide) (by decide) (by decide) (by decide +kernel) (by decide +kernel) (by decide +kernel)
    wheel_orders_DC (n := 6) (by decide +kernel) (by decide)
  have c2 : 0 < cutChance wheelGraph wheelPop 3 0 (treeChance N wheelGraph) {0, 1, 2, 4, 6} := by
    have h1 := splitChance_le (N := N) (A := {2, 4}) (B := {0, 1, 6}) wheel_wf hN (by decide) (Finset.subset_univ _) (Finset.subset_univ _) (by decide) (by decide)
      (wheel_connected _ (by decide +kernel)) (by decide +kernel) (by decide +kernel) wheel_small
    have h2 := sCD.1
    rw [show ({2, 4} ∪ {0, 1, 6} : Finset (Fin 7)) = {0, 1, 2, 4, 6} by decide] at h1
    norm_num [Nat.factorial] at h2
    linarith
  have d2 := seenChance_pos hr hm c2 (cutChance_le_one wheel_wf hN (Finset.subset_univ _) (wheel_connected _ (by decide +kernel)))
  have eDA := wheel_move (m := m) hN hd hr hf hL iD iA (s := {3, 5}) (t := {0, 1, 6}) (A := {1, 3}) (B := {0, 5, 6}) (by decide) (by decide)
    (by decide +kernel) (by decide +kernel) (k := 3) (c := 6) (by decide +kernel) (by decide +kernel) (U := {0, 1, 3, 5, 6}) (by decide)
  have sDA := wheel_split hN hd (A := {1, 3}) (B := {0, 5, 6}) (by decide) (by decide) (by decide) (by decide +kernel) (by decide +kernel) (by decide +kernel)
    wheel_orders_DA (n := 6) (by decide +kernel) (by decide)
  have eAD := wheel_move (m := m) hN hd hr hf hL iA iD (s := {1, 3}) (t := {0, 5, 6}) (A := {3, 5}) (B := {0, 1, 6}) (by decide) (by decide)
    (by decide +kernel) (by decide +kernel) (k := 3) (c := 6) (by decide +kernel) (by decide +kernel) (U := {0, 1, 3, 5, 6}) (by decide)
  have sAD := wheel_split hN hd (A := {3, 5}) (B := {0, 1, 6}) (by decide) (by decide) (by decide) (by decide +kernel) (by decide +kernel) (by decide +kernel)
    wheel_orders_AD (n := 6) (by decide +kernel) (by decide)
  have c3 : 0 < cutChance wheelGraph wheelPop 3 0 (treeChance N wheelGraph) {0, 1, 3, 5, 6} := by
    have h1 := splitChance_le (N := N) (A := {1, 3}) (B := {0, 5, 6}) wheel_wf hN (by decide) (Finset.subset_univ _) (Finset.subset_univ _) (by decide) (by decide)
      (wheel_connected _ (by decide +kernel)) (by decide +kernel) (by decide +kernel) wheel_small
    have h2 := sDA.1
    rw [show ({1, 3} ∪ {0, 5, 6} : Finset (Fin 7)) = {0, 1, 3, 5, 6} by decide] at h1
    norm_num [Nat.factorial] at h2
    linarith
  have d3 := seenChance_pos hr hm c3 (cutChance_le_one wheel_wf hN (Finset.subset_univ _) (wheel_connected _ (by decide +kernel)))
  rw [eAB, eBC, eCD, eDA, eBA, eCB, eDC, eAD] at hcyc
  have hprod := wheel_cancel c0 c1 c2 c3 d0 d1 d2 d3 hcyc
  have hup := mul4_le (by have := sAB.1; norm_num [Nat.factorial] at this; linarith) (by have := sBC.1; norm_num [Nat.factorial] at this; linarith)
    (by have := sCD.1; norm_num [Nat.factorial] at this; linarith) (by have := sDA.1; norm_num [Nat.factorial] at this; linarith) sAB.2 sBC.2 sCD.2 sDA.2
  have hlo := mul4_le (by norm_num [Nat.factorial]) (by norm_num [Nat.factorial]) (by norm_num [Nat.factorial]) (by norm_num [Nat.factorial])
    sBA.1 sCB.1 sDC.1 sAD.1
  have hend := (mul_le_mul_of_nonneg_left hlo (by norm_num : (0 : ℚ) ≤ 9)).trans (hprod.symm.le.trans (mul_le_mul_of_nonneg_left hup (by norm_num : (0 : ℚ) ≤ 8)))
  norm_num [Nat.factorial] at hend

/-! ### Concrete cases -/

/-- the hypotheses are met by the four plans, and with uniform spanning trees `recom` is reversible there -/
example (m : ℕ) : cutTreeWeight wheelGraph wheelB * recomChance (2 ^ 10).factorial (3 + m * 16) 1 m 1 wheelGraph wheelPop 3 0 wheelB wheelC.plan =
    cutTreeWeight wheelGraph wheelC * recomChance (2 ^ 10).factorial (3 + m * 16) 1 m 1 wheelGraph wheelPop 3 0 wheelC wheelB.plan :=
  C95_reversible wheelGraph wheelB wheelC _ 1 (wheel_setup (Nat.factorial_pos _) (dvd_refl _) (by decide) _ (.inr (.inl rfl)))
    (wheel_setup (Nat.factorial_pos _) (dvd_refl _) (by decide) _ (.inr (.inr (.inl rfl)))) wheelPop 3 0 m wheel_small
    (wheel_near _ (.inr (.inl rfl))) (wheel_near _ (.inr (.inr (.inl rfl)))) (by decide +kernel) 1 (by decide) _ (le_refl _)

example : wheelB.plan \ wheelC.plan = {{1, 3}, {0, 2, 5}} ∧ wheelC.plan \ wheelB.plan = {{3, 5}, {0, 1, 2}} ∧
    (seamOf wheelGraph {1, 3} {0, 2, 5}).card = 4 ∧ splitOrders wheelGraph {3, 5} {0, 1, 2} = 2156 ∧ splitOrders wheelGraph {1, 3} {0, 2, 5} = 904 :=
  ⟨by decide +kernel, by decide +kernel, by decide +kernel, wheel_orders_BC, wheel_orders_CB⟩

end GC

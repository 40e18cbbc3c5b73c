import Verif.Lemmas.RecomSpan
import Verif.Props.DetailedBalance

/-!
# The transition probabilities of `recom` (C95)

The default arguments of `recom` and `bipartition_tree`, except that the spanning trees are drawn uniformly: pairs of districts with probability
proportional to the number of edges between them, trees until one has a balanced edge, and the cut uniformly among the balanced edges of that tree.
-/

set_option linter.unusedSectionVars false
set_option autoImplicit false

namespace GC

variable {V P : Type} [LinearOrder V] [LinearOrder P]

/-- `bipartition_tree` (gerrychain/tree.py:581-718) with uniform spanning trees, `node_repeats=r` and `max_attempts=m`; the other arguments have their
defaults.  Without `region_surcharge` the attributes of the nodes are not looked at. -/
noncomputable def ustMethod (N r m : ℕ) (pop : V → ℚ) : Method V Tape :=
  bipMethod (uniRand N) (uniformSpan N) r (some m) (fun _ _ => (none : Option Unit)) none false (m + 1) pop

/-- `recom` (proposals/tree_proposals.py:36-146) with that method: the flips, see `recomLoop` -/
noncomputable def ustMove (N r m fuel : ℕ) (G : Graph V) (a : Assignment V P) (pop : V → ℚ) (target eps : ℚ) : M Tape (Dict V P) :=
  recomLoop (uniRand N) (ustMethod N r m pop) G a (cutsOf G a.mapping) pop target eps fuel ∅

/-- the probability that `recom` moves from the plan `a` to a plan with the districts `Q` -/
noncomputable def recomChance (N L r m fuel : ℕ) (G : Graph V) (pop : V → ℚ) (target eps : ℚ) (a : Assignment V P) (Q : Finset (Finset V)) : ℚ :=
  prob N L (ustMove N r m fuel G a pop target eps) (fun x => arrives a Q x = true)

/-- The spanning trees of `A ∪ B` that have exactly one edge between `A` and `B`, each counted as one over the number of its balanced edges -/
noncomputable def splitWeight (G : Graph V) (pop : V → ℚ) (target eps : ℚ) (A B : Finset V) : ℚ :=
  ∑ E ∈ (treeSets (G.subgraph (A ∪ B))).filter (fun E => (E ∩ seamOf G A B).card = 1), 1 / ((balancedEdges (A ∪ B) E pop target eps).card : ℚ)

open Classical in
/-- the number of spanning trees of the subgraph that have a balanced edge -/
noncomputable def cutTrees (G : Graph V) (pop : V → ℚ) (target eps : ℚ) (U : Finset V) : ℕ :=
  ((treeSets (G.subgraph U)).filter (fun E => balancedEdges U E pop target eps ≠ ∅)).card

/-- the probability that `m` attempts, `r` with each tree, see a tree with a balanced edge -/
noncomputable def foundChance (r m : ℕ) (G : Graph V) (pop : V → ℚ) (target eps : ℚ) (U : Finset V) : ℚ :=
  1 - (1 - (cutTrees G pop target eps U : ℚ) / numTrees G U) ^ ((m + r - 1) / r)

/-! ### Uniform spanning trees -/

/-- every spanning tree of the subgraph on `U` has the same probability -/
noncomputable def uniformLaw (G : Graph V) (U : Finset V) (_ : Finset (V × V)) : ℚ := 1 / numTrees G U

/-- the law of `uniformSpan` -/
theorem uniform_treeLaw {N : ℕ} {G : Graph V} (hG : G.WF) (hN : 0 < N) (hdiv : (2 ^ G.edges.card).factorial ∣ N) :
    TreeLaw N 1 G (uniformSpan N) (uniformLaw G) := by
  classical
  refine ⟨fun U hU hconn => ?_⟩
  have hn := subgraph_nodes hU
  have htree : (treeSets (G.subgraph U)).Nonempty := exists_tree (hG.subgraph U) ((connectedOn_subgraph (G := G) hU).2 hconn)
  have hτle : (treeSets (G.subgraph U)).card ≤ 2 ^ G.edges.card := by
    unfold treeSets
    refine (Finset.card_le_card (Finset.filter_subset _ _)).trans ?_
    rw [Finset.card_powerset]
    exact Nat.pow_le_pow_right (by omega) (Finset.card_le_card (Finset.filter_subset _ _))
  have hnil : (treeSets (G.subgraph U)).toList ≠ [] := by
    intro h
    rw [Finset.toList_eq_nil] at h
    exact htree.ne_empty h
  refine ⟨hN, ?_, ?_, ?_⟩
  · unfold uniformSpan
    exact (draws_choice N _).bind (j := 0) (fun E => draws_pure 0 _)
  · intro w
    obtain ⟨E, hE, w', hw⟩ := (uniRand_valid hN).choice_mem (treeSets (G.subgraph U)).toList w hnil
    refine ⟨treeOn U E, w', ?_, rfl, (Finset.mem_toList.1 hE)⟩
    unfold uniformSpan
    rw [M.bind_ok hw, hn]
    rfl
  · intro E hE
    unfold prob uniformSpan
    have hd : (treeSets (G.subgraph U)).toList.length ∣ N := by
      rw [Finset.length_toList]
      exact (Nat.dvd_factorial (Finset.card_pos.2 htree) hτle).trans hdiv
    rw [show (1 : ℕ) = 0 + 1 from rfl, avg_choice (g := fun r => if hasEdges E r = true then (1 : ℚ) else 0) hN 0 _ hnil hd, Finset.length_toList]
    have h1 : ∀ E' ∈ (treeSets (G.subgraph U)).toList, avg N 0 (fun w => if hasEdges E ((pure (treeOn (G.subgraph U).nodes E') : M Tape (WTree V)) w).1 = true
        then (1 : ℚ) else 0) = if E' = E then 1 else 0 := by
      intro E' _
      rw [avg_congr N 0 (ψ := fun _ => if E' = E then (1 : ℚ) else 0), avg_const hN]
      intro w
      show (if decide (E' = E) = true then (1 : ℚ) else 0) = _
      simp
    have h2 := List.map_congr_left h1
    unfold treeOn at h2
    rw [h2, Finset.sum_map_toList, Finset.sum_ite_eq', if_pos hE]
    rfl

theorem splitChance_uniform (G : Graph V) (pop : V → ℚ) (target eps : ℚ) (A B : Finset V) :
    splitChance G pop target eps (uniformLaw G) A B = splitWeight G pop target eps A B / numTrees G (A ∪ B) := by
  unfold splitChance splitWeight uniformLaw
  rw [Finset.sum_div]
  exact Finset.sum_congr rfl (fun E _ => by ring)

theorem cutChance_uniform (G : Graph V) (pop : V → ℚ) (target eps : ℚ) (U : Finset V) :
    cutChance G pop target eps (uniformLaw G) U = cutTrees G pop target eps U / numTrees G U := by
  unfold cutChance cutTrees uniformLaw
  rw [Finset.sum_const, nsmul_eq_mul]
  ring

theorem formula_uniform (G : Graph V) (pop : V → ℚ) (target eps : ℚ) (r m : ℕ) {A B U : Finset V} (hU : A ∪ B = U) :
    splitChance G pop target eps (uniformLaw G) A B / cutChance G pop target eps (uniformLaw G) U * seenChance r m G pop target eps (uniformLaw G) U =
      splitWeight G pop target eps A B / cutTrees G pop target eps U * foundChance r m G pop target eps U := by
  unfold seenChance foundChance
  rw [splitChance_uniform, cutChance_uniform, hU]
  by_cases h0 : (numTrees G U : ℚ) = 0
  · have : splitWeight G pop target eps A B = 0 := by
      unfold splitWeight
      have : treeSets (G.subgraph U) = ∅ := Finset.card_eq_zero.1 (by exact_mod_cast h0)
      rw [hU, this]
      rfl
    rw [this]
    simp
  · rw [div_div_div_cancel_right₀ h0]

/-! ### The theorems -/

/-- **C95** (transition probabilities) Let the plan `a` and the partition `Q` differ in the districts `s`, `t` of `a` and `A`, `B` of `Q`.  The
probability that `recom` moves from `a` to a plan with the districts `Q` is the share of the edges between `s` and `t` among the cut edges, times the sum
over the spanning trees of the merged districts with one edge between `A` and `B` of one over the number of their balanced edges, divided by the number
of spanning trees with a balanced edge, times the probability that the attempts see such a tree. -/
theorem C95_transition_formula (G : Graph V) (a : Assignment V P) (N r : ℕ) (h : RecomSetup N r G a) (pop : V → ℚ) (target eps : ℚ) (m : ℕ)
    (Q : Finset (Finset V)) (hQ : IsPartition G.nodes Q) (s t A B : Finset V) (hst : s ≠ t) (hAB : A ≠ B) (h1 : a.plan \ Q = {s, t})
    (h2 : Q \ a.plan = {A, B}) (nA : Near target eps (popOf pop A)) (nB : Near target eps (popOf pop B))
    (fuel : ℕ) (hf : 0 < fuel) (L : ℕ) (hL : 3 + m * (2 + 2 * G.nodes.card) ≤ L) :
    recomChance N L r m fuel G pop target eps a Q = (seamOf G s t).card / ((cutsOf G a.mapping).card : ℚ) *
      (splitWeight G pop target eps A B / cutTrees G pop target eps (s ∪ t) * foundChance r m G pop target eps (s ∪ t)) := by
  rw [← formula_uniform G pop target eps r m (two_parts h.isPart hQ h1 h2 hAB).1]
  exact span_transition_formula h (uniform_treeLaw h.wf h.pos h.div) Q hQ s t A B hst hAB h1 h2 nA nB fuel hf L (by
    rw [show 1 + (1 + 2 * G.nodes.card) = 2 + 2 * G.nodes.card by ring]; exact hL)

/-- **C95** (two districts) With two districts the probability of the next plan does not depend on the present one: `recom` draws independent plans. -/
theorem C95_two_districts (G : Graph V) (a : Assignment V P) (N r : ℕ) (h : RecomSetup N r G a) (pop : V → ℚ) (target eps : ℚ) (m : ℕ)
    (h2 : a.plan.card = 2) (h3 : 3 ≤ G.nodes.card) (hconn : ConnectedOn G G.nodes)
    (A B : Finset V) (hAB : Disjoint A B) (hU : A ∪ B = G.nodes) (hA0 : A.Nonempty) (hB0 : B.Nonempty)
    (nA : Near target eps (popOf pop A)) (nB : Near target eps (popOf pop B))
    (fuel : ℕ) (hf : 0 < fuel) (L : ℕ) (hL : 3 + m * (2 + 2 * G.nodes.card) ≤ L) :
    recomChance N L r m fuel G pop target eps a {A, B} =
      splitWeight G pop target eps A B / cutTrees G pop target eps G.nodes * foundChance r m G pop target eps G.nodes := by
  rw [← formula_uniform G pop target eps r m hU]
  exact span_two_districts h (uniform_treeLaw h.wf h.pos h.div) h2 h3 hconn A B hAB hU hA0 hB0 nA nB fuel hf L (by
    rw [show 1 + (1 + 2 * G.nodes.card) = 2 + 2 * G.nodes.card by ring]; exact hL)

/-- **C95** (no other moves) A move from `a` changes exactly two districts: every other partition has probability zero. -/
theorem C95_no_other_move (G : Graph V) (a : Assignment V P) (N r : ℕ) (h : RecomSetup N r G a) (pop : V → ℚ) (target eps : ℚ) (m : ℕ)
    (Q : Finset (Finset V)) (hne : a.plan ≠ Q) (h2 : ¬ ((a.plan \ Q).card = 2 ∧ (Q \ a.plan).card = 2))
    (fuel : ℕ) (hf : 0 < fuel) (L : ℕ) (hL : 3 + m * (2 + 2 * G.nodes.card) ≤ L) :
    recomChance N L r m fuel G pop target eps a Q = 0 := by
  exact span_no_other_move h (uniform_treeLaw h.wf h.pos h.div) Q hne h2 fuel hf L (by
    rw [show 1 + (1 + 2 * G.nodes.card) = 2 + 2 * G.nodes.card by ring]; exact hL)

/-! ### Tolerances smaller than the nodes -/

/-- two edges of a tree: one side of the one is a proper subset of a side of the other -/
theorem nested_sides {T : Graph V} (hT : IsTree T) {x y u v : V} (hxy : T.Adj x y) (huv : T.Adj u v) (hne : ¬ (u = x ∧ v = y) ∧ ¬ (u = y ∧ v = x))
    {X W : Finset V} (hX : IsSide T x y X) (hW : IsSide T u v W) (hu : u ∉ X) (hv : v ∉ X) (hx : x ∈ W) (hy : y ∈ W) : X ⊆ W ∧ y ∈ W \ X := by
  have hxX : x ∈ X := (hX x).2 ⟨(hT.wf.mem_of_adj hxy).1, Relation.ReflTransGen.refl⟩
  constructor
  · intro w hw
    have hr := (side_connected hT hxy hX).2 x hxX w hw
    have hr' : ReachIn (T.cut u v) T.nodes x w := by
      refine Relation.ReflTransGen.mono ?_ _ _ hr
      rintro a b ⟨hab, ha, hb⟩
      refine ⟨Graph.cut_adj.2 ⟨hab, ?_, ?_⟩, ((hX a).1 ha).1, ((hX b).1 hb).1⟩
      · rintro ⟨rfl, -⟩; exact hu ha
      · rintro ⟨rfl, -⟩; exact hv ha
    exact (hW w).2 ⟨((hX w).1 hw).1, ((hW x).1 hx).2.trans hr'⟩
  · refine Finset.mem_sdiff.2 ⟨hy, fun hyX => ?_⟩
    obtain ⟨A, hA, hB⟩ := side_compl hT hxy
    rw [hX.unique hA] at hyX
    have := (hB y).2 ⟨(hT.wf.mem_of_adj hxy).2, Relation.ReflTransGen.refl⟩
    exact (Finset.mem_sdiff.1 this).2 hyX

/-- the ends of another edge are on the same side -/
theorem same_side {T : Graph V} (hT : IsTree T) {x y u v : V} (huv : T.Adj u v) (hne : ¬ (u = x ∧ v = y) ∧ ¬ (u = y ∧ v = x))
    {X : Finset V} (hX : IsSide T x y X) : u ∈ X ↔ v ∈ X := by
  obtain ⟨hu, hv⟩ := hT.wf.mem_of_adj huv
  constructor
  · intro h
    refine (hX v).2 ⟨hv, Relation.ReflTransGen.tail ((hX u).1 h).2 ⟨Graph.cut_adj.2 ⟨huv, hne.1, hne.2⟩, hu, hv⟩⟩
  · intro h
    refine (hX u).2 ⟨hu, Relation.ReflTransGen.tail ((hX v).1 h).2 ⟨Graph.cut_adj.2 ⟨huv.symm, ?_, ?_⟩, hv, hu⟩⟩
    · rintro ⟨a, b⟩; exact hne.2 ⟨b, a⟩
    · rintro ⟨a, b⟩; exact hne.1 ⟨b, a⟩

/-- **C95** (small tolerance) If every node has more people than the width of the allowed range of populations, no tree has two balanced edges. -/
theorem C95_one_cut {T : Graph V} (hT : IsTree T) (pop : V → ℚ) (target eps : ℚ) (h0 : ∀ v ∈ T.nodes, 0 ≤ pop v)
    (hpop : ∀ v ∈ T.nodes, 2 * (eps * target) < pop v) {x y u v : V} (hxy : BalancedEdge T pop target eps x y)
    (huv : BalancedEdge T pop target eps u v) : (u = x ∧ v = y) ∨ (u = y ∧ v = x) := by
  by_contra hc
  obtain ⟨c1, c2⟩ := not_or.1 hc
  -- a side of each edge, nested
  have core : ∀ {x y u v : V} {X W : Finset V}, T.Adj x y → T.Adj u v → ¬ (u = x ∧ v = y) → ¬ (u = y ∧ v = x) → IsSide T x y X → IsSide T u v W →
      Near target eps (popOf pop X) → Near target eps (popOf pop W) → u ∉ X → x ∈ W → False := by
    intro x y u v X W hxy huv c1 c2 hX hW nX nW hu hx
    have hv : v ∉ X := fun h => hu ((same_side hT huv ⟨c1, c2⟩ hX).2 h)
    have hy : y ∈ W := (same_side hT hxy ⟨fun h => c1 ⟨h.1.symm, h.2.symm⟩, fun h => c2 ⟨h.2.symm, h.1.symm⟩⟩ hW).1 hx
    obtain ⟨hsub, hyW⟩ := nested_sides hT hxy huv ⟨c1, c2⟩ hX hW hu hv hx hy
    have e1 : popOf pop (W \ X) + popOf pop X = popOf pop W := Finset.sum_sdiff hsub
    have e2 : pop y ≤ popOf pop (W \ X) := Finset.single_le_sum (fun z hz => h0 z ((hW z).1 (Finset.mem_sdiff.1 hz).1).1) hyW
    have e3 := hpop y (hT.wf.mem_of_adj hxy).2
    unfold Near at nX nW
    rw [abs_le] at nX nW
    linarith [nX.1, nW.2]
  obtain ⟨hxy', A, B, hA, hB, nA, nB⟩ := hxy
  obtain ⟨huv', C, D, hC, hD, nC, nD⟩ := huv
  have hBA : B = T.nodes \ A := by
    obtain ⟨A', hA', hB'⟩ := side_compl hT hxy'
    rw [hA.unique hA', hB.unique hB']
  have hDC : D = T.nodes \ C := by
    obtain ⟨A', hA', hB'⟩ := side_compl hT huv'
    rw [hC.unique hA', hD.unique hB']
  obtain ⟨mx, my⟩ := hT.wf.mem_of_adj hxy'
  obtain ⟨mu, mv⟩ := hT.wf.mem_of_adj huv'
  have hss := same_side hT huv' ⟨c1, c2⟩ hA
  have hss' := same_side hT hxy' (x := u) (y := v) ⟨fun h => c1 ⟨h.1.symm, h.2.symm⟩, fun h => c2 ⟨h.2.symm, h.1.symm⟩⟩ hC
  by_cases hu : u ∈ A
  · have hu' : u ∉ B := by rw [hBA, Finset.mem_sdiff]; exact fun h => h.2 hu
    have hv' : v ∉ B := by rw [hBA, Finset.mem_sdiff]; exact fun h => h.2 (hss.1 hu)
    by_cases hx : x ∈ C
    · exact core hxy'.symm huv' c2 c1 hB hC nB nC hu' (hss'.1 hx)
    · have hy' : y ∈ D := by rw [hDC, Finset.mem_sdiff]; exact ⟨my, fun h => hx (hss'.2 h)⟩
      exact core hxy'.symm huv'.symm (fun h => c1 ⟨h.2, h.1⟩) (fun h => c2 ⟨h.2, h.1⟩) hB hD nB nD hv' hy'
  · have hv : v ∉ A := fun h => hu (hss.2 h)
    by_cases hx : x ∈ C
    · exact core hxy' huv' c1 c2 hA hC nA nC hu hx
    · have hx' : x ∈ D := by rw [hDC, Finset.mem_sdiff]; exact ⟨mx, hx⟩
      exact core hxy' huv'.symm (fun h => c2 ⟨h.2, h.1⟩) (fun h => c1 ⟨h.2, h.1⟩) hA hD nA nD hv hx'

/-- every node has more people than the width of the allowed range of populations -/
def SmallTolerance (G : Graph V) (pop : V → ℚ) (target eps : ℚ) : Prop := ∀ v ∈ G.nodes, 0 ≤ pop v ∧ 2 * (eps * target) < pop v

theorem SmallTolerance.card_le_one {G : Graph V} {pop : V → ℚ} {target eps : ℚ} (hs : SmallTolerance G pop target eps) {U : Finset V}
    (hU : U ⊆ G.nodes) {E : Finset (V × V)} (hE : E ∈ treeSets (G.subgraph U)) : (balancedEdges U E pop target eps).card ≤ 1 := by
  classical
  obtain ⟨-, hT⟩ := (mem_treeSets hU).1 hE
  rw [Finset.card_le_one]
  intro e he f hf
  unfold balancedEdges at he hf
  rw [Finset.mem_filter] at he hf
  rcases C95_one_cut hT pop target eps (fun v hv => (hs v (hU hv)).1) (fun v hv => (hs v (hU hv)).2) he.2 hf.2 with ⟨a, b⟩ | ⟨a, b⟩
  · exact Prod.ext a.symm b.symm
  · have hswap : (e.2, e.1) ∈ E := by rw [← a, ← b]; exact hf.1
    by_cases hee : e.1 = e.2
    · exact Prod.ext (by rw [a, hee]) (by rw [b, hee])
    · exact absurd hswap (hT.wf.asymm _ he.1 hee)

/-- a single edge between two districts within the tolerance is balanced -/
theorem seam_balanced {G : Graph V} (hG : G.WF) {A B : Finset V} (hAB : Disjoint A B) (hA : A ⊆ G.nodes) (hB : B ⊆ G.nodes) (hA0 : A.Nonempty)
    (hB0 : B.Nonempty) {pop : V → ℚ} {target eps : ℚ} (nA : Near target eps (popOf pop A)) (nB : Near target eps (popOf pop B))
    {E : Finset (V × V)} (hE : E ∈ treeSets (G.subgraph (A ∪ B))) (h1 : (E ∩ seamOf G A B).card = 1) :
    0 < (balancedEdges (A ∪ B) E pop target eps).card := by
  classical
  obtain ⟨hs, ht⟩ := (mem_treeSets (Finset.union_subset hA hB)).1 hE
  obtain ⟨e, he⟩ := Finset.card_eq_one.1 h1
  obtain ⟨-, -, x, hx, y, hy, -, huniq⟩ := seam_unique hG hAB (fun f hf => (hs f hf).1) he
  have s1 := side_of_seam hG hAB hA hB hA0 hE hx hy huniq
  have s2 : IsSide ⟨A ∪ B, E⟩ y x B := by
    have := side_of_seam hG hAB.symm hB hA hB0 (by rw [Finset.union_comm]; exact hE) hy hx
      (fun a ha b hb hab => (huniq b hb a ha (by rw [Finset.union_comm]; exact hab.symm)).symm)
    rw [Finset.union_comm] at this
    exact this
  have hxy : Graph.Adj (⟨A ∪ B, E⟩ : Graph V) x y := by
    obtain ⟨u, hu, v, hv, huv⟩ := exists_edge_between ht.conn hA0 hB0 hAB
    obtain ⟨rfl, rfl⟩ := huniq u hu v hv huv
    exact huv
  rw [Finset.card_pos]
  unfold balancedEdges
  rcases hxy with h | h
  · exact ⟨(x, y), Finset.mem_filter.2 ⟨h, .inl h, A, B, s1, s2, nA, nB⟩⟩
  · exact ⟨(y, x), Finset.mem_filter.2 ⟨h, .inl h, B, A, s2, s1, nB, nA⟩⟩

theorem splitWeight_small {G : Graph V} (hG : G.WF) {A B : Finset V} (hAB : Disjoint A B) (hA : A ⊆ G.nodes) (hB : B ⊆ G.nodes) (hA0 : A.Nonempty)
    (hB0 : B.Nonempty) {pop : V → ℚ} {target eps : ℚ} (nA : Near target eps (popOf pop A)) (nB : Near target eps (popOf pop B))
    (hs : SmallTolerance G pop target eps) :
    splitWeight G pop target eps A B = ((numTrees G A * numTrees G B * (seamOf G A B).card : ℕ) : ℚ) := by
  rw [← card_trees_one_seam hG hAB hA hB hA0 hB0]
  unfold splitWeight
  rw [Finset.card_eq_sum_ones]
  push_cast
  refine Finset.sum_congr rfl (fun E hE => ?_)
  obtain ⟨h1, h2⟩ := Finset.mem_filter.1 hE
  have := seam_balanced hG hAB hA hB hA0 hB0 nA nB h1 h2
  have := hs.card_le_one (Finset.union_subset hA hB) h1
  have : (balancedEdges (A ∪ B) E pop target eps).card = 1 := by omega
  rw [this]
  norm_num

/-- the weight of a plan: the number of its cut edges times the number of ways to choose a spanning tree in every district -/
noncomputable def cutTreeWeight (G : Graph V) (a : Assignment V P) : ℚ := (cutsOf G a.mapping).card * treeWeight G a.plan

theorem seam_zero {N r : ℕ} {G : Graph V} {a : Assignment V P} (h : RecomSetup N r G a) {p q : P} (hne : p ≠ q) {s t : Finset V}
    (hs : a.parts.get? p = some s) (ht : a.parts.get? q = some t) (h0 : ((cutsOf G a.mapping).card : ℚ) = 0) : ((seamOf G s t).card : ℚ) = 0 := by
  have h1 := card_seam_cuts h hne hs ht
  have h2 : cutsOf G a.mapping = ∅ := Finset.card_eq_zero.1 (by exact_mod_cast h0)
  rw [h2] at h1
  rw [← h1]
  simp

theorem balance_algebra (ca cb w s t x y k l c f : ℚ) (za : ca = 0 → k = 0) (zb : cb = 0 → l = 0) :
    ca * (w * (s * t)) * (k / ca * (x * y * l / c * f)) = cb * (w * (x * y)) * (l / cb * (s * t * k / c * f)) := by
  by_cases ha : ca = 0
  · rw [ha, za ha]; ring
  · by_cases hb : cb = 0
    · rw [hb, zb hb]; ring
    · have e1 : ca * (w * (s * t)) * (k / ca * (x * y * l / c * f)) = (ca / ca) * (w * (s * t) * k * (x * y * l / c * f)) := by ring
      have e2 : cb * (w * (x * y)) * (l / cb * (s * t * k / c * f)) = (cb / cb) * (w * (x * y) * l * (s * t * k / c * f)) := by ring
      rw [e1, e2, div_self ha, div_self hb]
      ring

/-- **C95** (reversible) If the tolerance is small, `recom` with uniform spanning trees is reversible with respect to the number of cut edges times the
product of the numbers of spanning trees of the districts. -/
theorem C95_reversible (G : Graph V) (a b : Assignment V P) (N r : ℕ) (ha : RecomSetup N r G a) (hb : RecomSetup N r G b) (pop : V → ℚ)
    (target eps : ℚ) (m : ℕ) (hs : SmallTolerance G pop target eps) (na : ∀ X ∈ a.plan, Near target eps (popOf pop X))
    (nb : ∀ X ∈ b.plan, Near target eps (popOf pop X)) (hne : a.plan ≠ b.plan)
    (fuel : ℕ) (hf : 0 < fuel) (L : ℕ) (hL : 3 + m * (2 + 2 * G.nodes.card) ≤ L) :
    cutTreeWeight G a * recomChance N L r m fuel G pop target eps a b.plan =
      cutTreeWeight G b * recomChance N L r m fuel G pop target eps b a.plan := by
  by_cases h2 : (a.plan \ b.plan).card = 2 ∧ (b.plan \ a.plan).card = 2
  · obtain ⟨s, t, hst, e1⟩ := Finset.card_eq_two.1 h2.1
    obtain ⟨A, B, hAB, e2⟩ := Finset.card_eq_two.1 h2.2
    obtain ⟨hunion, hdis, hA0, hB0, -⟩ := two_parts ha.isPart hb.isPart e1 e2 hAB
    obtain ⟨-, hdis', hs0, ht0, -⟩ := two_parts hb.isPart ha.isPart e2 e1 hst
    have inPlan : ∀ {c : Assignment V P}, RecomSetup N r G c → ∀ {X}, X ∈ c.plan → ∃ p, c.parts.get? p = some X :=
      fun hc _ hX => (mem_plan hc.coherent).1 hX
    have ms : s ∈ a.plan := (Finset.mem_sdiff.1 (by rw [e1]; simp : s ∈ a.plan \ b.plan)).1
    have mt : t ∈ a.plan := (Finset.mem_sdiff.1 (by rw [e1]; simp : t ∈ a.plan \ b.plan)).1
    have mA : A ∈ b.plan := (Finset.mem_sdiff.1 (by rw [e2]; simp : A ∈ b.plan \ a.plan)).1
    have mB : B ∈ b.plan := (Finset.mem_sdiff.1 (by rw [e2]; simp : B ∈ b.plan \ a.plan)).1
    obtain ⟨ps, hps⟩ := inPlan ha ms
    obtain ⟨pt, hpt⟩ := inPlan ha mt
    obtain ⟨pA, hpA⟩ := inPlan hb mA
    obtain ⟨pB, hpB⟩ := inPlan hb mB
    have hne1 : ps ≠ pt := by rintro rfl; rw [hps] at hpt; exact hst (Option.some.inj hpt)
    have hne2 : pA ≠ pB := by rintro rfl; rw [hpA] at hpB; exact hAB (Option.some.inj hpB)
    rw [C95_transition_formula G a N r ha pop target eps m b.plan hb.isPart s t A B hst hAB e1 e2 (nb A mA) (nb B mB) fuel hf L hL,
      C95_transition_formula G b N r hb pop target eps m a.plan ha.isPart A B s t hAB hst e2 e1 (na s ms) (na t mt) fuel hf L hL,
      splitWeight_small ha.wf hdis (hb.sub hpA) (hb.sub hpB) hA0 hB0 (nb A mA) (nb B mB) hs,
      splitWeight_small ha.wf hdis' (ha.sub hps) (ha.sub hpt) hs0 ht0 (na s ms) (na t mt) hs, hunion]
    have wa : treeWeight G a.plan = ((∏ X ∈ a.plan ∩ b.plan, numTrees G X : ℕ) : ℚ) * (numTrees G s * numTrees G t) := by
      unfold treeWeight
      rw [← Finset.prod_inter_mul_prod_diff a.plan b.plan, e1, Finset.prod_pair hst]
      push_cast
      ring
    have wb : treeWeight G b.plan = ((∏ X ∈ a.plan ∩ b.plan, numTrees G X : ℕ) : ℚ) * (numTrees G A * numTrees G B) := by
      unfold treeWeight
      rw [← Finset.prod_inter_mul_prod_diff b.plan a.plan, e2, Finset.prod_pair hAB, Finset.inter_comm]
      push_cast
      ring
    have za : ((cutsOf G a.mapping).card : ℚ) = 0 → ((seamOf G s t).card : ℚ) = 0 := by
      exact fun h0 => seam_zero ha hne1 hps hpt h0
    have zb : ((cutsOf G b.mapping).card : ℚ) = 0 → ((seamOf G A B).card : ℚ) = 0 := by
      exact fun h0 => seam_zero hb hne2 hpA hpB h0
    unfold cutTreeWeight
    rw [wa, wb]
    push_cast
    exact balance_algebra _ _ _ _ _ _ _ _ _ _ _ za zb
  · rw [C95_no_other_move G a N r ha pop target eps m b.plan hne h2 fuel hf L hL,
      C95_no_other_move G b N r hb pop target eps m a.plan hne.symm (fun h => h2 h.symm) fuel hf L hL, mul_zero, mul_zero]

/-! ### A concrete case: `recom` does not draw from the spanning-tree distribution -/

/-- a triangle 1, 2, 3 and a path from 3 over 4 and 0 back to 1 -/
def kiteGraph : Graph (Fin 5) := ⟨Finset.univ, {(1, 2), (1, 3), (2, 3), (3, 4), (0, 4), (0, 1)}⟩

/-- node 0 has two people, the others have one -/
def kitePop (v : Fin 5) : ℚ := if v = 0 then 2 else 1

/-- the triangle and the rest -/
def kiteA : Assignment (Fin 5) (Fin 2) := ⟨⟨[(0, {0, 4}), (1, {1, 2, 3})]⟩, ⟨[(0, 0), (1, 1), (2, 1), (3, 1), (4, 0)]⟩⟩

/-- two paths -/
def kiteB : Assignment (Fin 5) (Fin 2) := ⟨⟨[(0, {0, 1}), (1, {2, 3, 4})]⟩, ⟨[(0, 0), (1, 0), (2, 1), (3, 1), (4, 1)]⟩⟩

theorem kite_wf : kiteGraph.WF := ⟨by decide, by decide, by decide⟩

theorem kite_connected (s : Finset (Fin 5)) (hs : nxIsConnected (kiteGraph.subgraph s) = .ok true) : ConnectedOn kiteGraph s := by
  rw [nxIsConnected_true (kite_wf.subgraph s)] at hs
  exact (connectedOn_subgraph (Finset.subset_univ s)).1 hs

theorem kite_setup : RecomSetup (2 ^ 6).factorial 1 kiteGraph kiteA ∧ RecomSetup (2 ^ 6).factorial 1 kiteGraph kiteB := by
  constructor
  · refine ⟨kite_wf, Nat.factorial_pos _, Nat.factorial_dvd_factorial (by decide), by decide, ?_, by unfold Assignment.Covers; decide, ?_⟩
    · refine ⟨by unfold Dict.WF; decide, by unfold Dict.WF; decide, ?_, by decide⟩
      intro p s hs
      fin_cases p <;> cases hs <;> decide
    · intro p s hs
      fin_cases p <;> cases hs <;> exact kite_connected _ (by decide +kernel)
  · refine ⟨kite_wf, Nat.factorial_pos _, Nat.factorial_dvd_factorial (by decide), by decide, ?_, by unfold Assignment.Covers; decide, ?_⟩
    · refine ⟨by unfold Dict.WF; decide, by unfold Dict.WF; decide, ?_, by decide⟩
      intro p s hs
      fin_cases p <;> cases hs <;> decide
    · intro p s hs
      fin_cases p <;> cases hs <;> exact kite_connected _ (by decide +kernel)

theorem kite_small : SmallTolerance kiteGraph kitePop 3 0 := by unfold SmallTolerance; decide +kernel

theorem kite_near : (∀ X ∈ kiteA.plan, Near 3 0 (popOf kitePop X)) ∧ (∀ X ∈ kiteB.plan, Near 3 0 (popOf kitePop X)) := by decide +kernel

theorem kite_plans : kiteA.plan = {{0, 4}, {1, 2, 3}} ∧ kiteB.plan = {{0, 1}, {2, 3, 4}} := by decide +kernel

/-- the numbers of spanning trees of the districts -/
theorem kite_trees : numTrees kiteGraph {0, 4} = 1 ∧ numTrees kiteGraph {1, 2, 3} = 3 ∧ numTrees kiteGraph {0, 1} = 1 ∧
    numTrees kiteGraph {2, 3, 4} = 1 := by
  have key2 : ∀ (nd : Option (Fin 1) → Fin 5) (s : Finset (Fin 5)) (n : ℕ), Function.Injective nd → (∀ v, v ∈ (kiteGraph.subgraph s).nodes ↔ ∃ o, nd o = v) →
      (laplaceOf (nbrs (kiteGraph.subgraph s) nd)).det = n → numTrees kiteGraph s = n := by
    intro nd s n h1 h2 h3
    rw [matrix_tree (kite_wf.subgraph s) ⟨h1, h2⟩] at h3
    exact_mod_cast h3
  have key3 : ∀ (nd : Option (Fin 2) → Fin 5) (s : Finset (Fin 5)) (n : ℕ), Function.Injective nd → (∀ v, v ∈ (kiteGraph.subgraph s).nodes ↔ ∃ o, nd o = v) →
      (laplaceOf (nbrs (kiteGraph.subgraph s) nd)).det = n → numTrees kiteGraph s = n := by
    intro nd s n h1 h2 h3
    rw [matrix_tree (kite_wf.subgraph s) ⟨h1, h2⟩] at h3
    exact_mod_cast h3
  refine ⟨key2 (fun o => o.elim 0 ![4]) _ _ (by decide) (by decide) (by decide +kernel),
    key3 (fun o => o.elim 1 ![2, 3]) _ _ (by decide) (by decide) (by decide +kernel),
    key2 (fun o => o.elim 0 ![1]) _ _ (by decide) (by decide) (by decide +kernel),
    key3 (fun o => o.elim 2 ![3, 4]) _ _ (by decide) (by decide) (by decide +kernel)⟩

/-- **C95** (not the spanning-tree distribution) On a graph with five nodes, two districts and tolerance zero: from every plan `recom` moves to the one
plan with twice the probability of the other, though in the spanning-tree distribution, the stationary distribution of `reversible_recom` (C74), the one
has three times the probability of the other. -/
theorem C95_not_spanning_tree_distribution (a : Assignment (Fin 5) (Fin 2)) (ha : a = kiteA ∨ a = kiteB) (m : ℕ) (hm : 0 < m) (fuel : ℕ) (hf : 0 < fuel) (L : ℕ)
    (hL : 3 + m * 12 ≤ L) :
    recomChance (2 ^ 6).factorial L 1 m fuel kiteGraph kitePop 3 0 a kiteA.plan =
        2 * recomChance (2 ^ 6).factorial L 1 m fuel kiteGraph kitePop 3 0 a kiteB.plan ∧
      0 < recomChance (2 ^ 6).factorial L 1 m fuel kiteGraph kitePop 3 0 a kiteB.plan ∧
      treeWeight kiteGraph kiteA.plan = 3 * treeWeight kiteGraph kiteB.plan ∧ 0 < treeWeight kiteGraph kiteB.plan := by
  have h : RecomSetup (2 ^ 6).factorial 1 kiteGraph a := by
    rcases ha with rfl | rfl
    · exact kite_setup.1
    · exact kite_setup.2
  have hcard : a.plan.card = 2 := by
    rcases ha with rfl | rfl
    · rw [kite_plans.1]; decide
    · rw [kite_plans.2]; decide
  obtain ⟨t1, t2, t3, t4⟩ := kite_trees
  have hconn : ConnectedOn kiteGraph kiteGraph.nodes := kite_connected _ (by decide +kernel)
  have nA : Near 3 0 (popOf kitePop {0, 4}) ∧ Near 3 0 (popOf kitePop {1, 2, 3}) := by decide +kernel
  have nB : Near 3 0 (popOf kitePop {0, 1}) ∧ Near 3 0 (popOf kitePop {2, 3, 4}) := by decide +kernel
  have d1 : Disjoint ({0, 4} : Finset (Fin 5)) {1, 2, 3} := by decide
  have d2 : Disjoint ({0, 1} : Finset (Fin 5)) {2, 3, 4} := by decide
  have u1 : ({0, 4} : Finset (Fin 5)) ∪ {1, 2, 3} = kiteGraph.nodes := by decide
  have u2 : ({0, 1} : Finset (Fin 5)) ∪ {2, 3, 4} = kiteGraph.nodes := by decide
  have hL' : 3 + m * (2 + 2 * kiteGraph.nodes.card) ≤ L := hL
  have f1 := C95_two_districts kiteGraph a _ 1 h kitePop 3 0 m hcard (by decide) hconn {0, 4} {1, 2, 3} d1 u1 (by decide) (by decide) nA.1 nA.2 fuel hf L hL'
  have f2 := C95_two_districts kiteGraph a _ 1 h kitePop 3 0 m hcard (by decide) hconn {0, 1} {2, 3, 4} d2 u2 (by decide) (by decide) nB.1 nB.2 fuel hf L hL'
  rw [splitWeight_small kite_wf d1 (Finset.subset_univ _) (Finset.subset_univ _) (by decide) (by decide) nA.1 nA.2 kite_small, t1, t2,
    (by decide +kernel : (seamOf kiteGraph {0, 4} {1, 2, 3}).card = 2)] at f1
  rw [splitWeight_small kite_wf d2 (Finset.subset_univ _) (Finset.subset_univ _) (by decide) (by decide) nB.1 nB.2 kite_small, t3, t4,
    (by decide +kernel : (seamOf kiteGraph {0, 1} {2, 3, 4}).card = 3)] at f2
  rw [kite_plans.1, kite_plans.2, f1, f2]
  -- some tree has a balanced edge
  have hcut : 0 < cutTrees kiteGraph kitePop 3 0 kiteGraph.nodes := by
    have hcount := card_trees_one_seam kite_wf d2 (Finset.subset_univ _) (Finset.subset_univ _) (by decide) (by decide)
    rw [t3, t4, (by decide +kernel : (seamOf kiteGraph {0, 1} {2, 3, 4}).card = 3)] at hcount
    obtain ⟨E, hE⟩ := Finset.card_pos.1 (by rw [hcount]; decide : 0 < _)
    obtain ⟨h1, h2⟩ := Finset.mem_filter.1 hE
    have h3 := seam_balanced kite_wf d2 (Finset.subset_univ _) (Finset.subset_univ _) (by decide) (by decide) nB.1 nB.2 h1 h2
    rw [u2] at h1 h3
    unfold cutTrees
    exact Finset.card_pos.2 ⟨E, Finset.mem_filter.2 ⟨h1, fun h0 => by rw [h0] at h3; exact absurd h3 (by simp)⟩⟩
  have hle : cutTrees kiteGraph kitePop 3 0 kiteGraph.nodes ≤ numTrees kiteGraph kiteGraph.nodes := by
    unfold cutTrees numTrees
    exact Finset.card_le_card (Finset.filter_subset _ _)
  have hfound : 0 < foundChance 1 m kiteGraph kitePop 3 0 kiteGraph.nodes := by
    unfold foundChance
    have c0 : (0 : ℚ) < (cutTrees kiteGraph kitePop 3 0 kiteGraph.nodes : ℚ) := by exact_mod_cast hcut
    have c1 : (cutTrees kiteGraph kitePop 3 0 kiteGraph.nodes : ℚ) ≤ (numTrees kiteGraph kiteGraph.nodes : ℚ) := by exact_mod_cast hle
    have c2 : (0 : ℚ) < (numTrees kiteGraph kiteGraph.nodes : ℚ) := lt_of_lt_of_le c0 c1
    have c3 : (cutTrees kiteGraph kitePop 3 0 kiteGraph.nodes : ℚ) / numTrees kiteGraph kiteGraph.nodes ≤ 1 := (div_le_one c2).2 c1
    have c4 := div_pos c0 c2
    have : (1 - (cutTrees kiteGraph kitePop 3 0 kiteGraph.nodes : ℚ) / numTrees kiteGraph kiteGraph.nodes) ^ ((m + 1 - 1) / 1) < 1 :=
      pow_lt_one₀ (by linarith) (by linarith) (by simp; omega)
    linarith
  have c0 : (0 : ℚ) < (cutTrees kiteGraph kitePop 3 0 kiteGraph.nodes : ℚ) := by exact_mod_cast hcut
  refine ⟨by push_cast; ring, ?_, ?_, ?_⟩
  · exact mul_pos (div_pos (by norm_num) c0) hfound
  · unfold treeWeight
    rw [Finset.prod_pair (by decide), Finset.prod_pair (by decide), t1, t2, t3, t4]
    norm_num
  · unfold treeWeight
    rw [Finset.prod_pair (by decide), t3, t4]
    norm_num

/-- the hypotheses of the formula and of reversibility are met by the two plans -/
example (m : ℕ) : cutTreeWeight kiteGraph kiteA * recomChance (2 ^ 6).factorial (3 + m * 12) 1 m 1 kiteGraph kitePop 3 0 kiteA kiteB.plan =
    cutTreeWeight kiteGraph kiteB * recomChance (2 ^ 6).factorial (3 + m * 12) 1 m 1 kiteGraph kitePop 3 0 kiteB kiteA.plan :=
  C95_reversible kiteGraph kiteA kiteB _ 1 kite_setup.1 kite_setup.2 kitePop 3 0 m kite_small kite_near.1 kite_near.2 (by decide +kernel) 1 (by decide) _
    (le_refl _)

example : kiteA.plan \ kiteB.plan = {{0, 4}, {1, 2, 3}} ∧ kiteB.plan \ kiteA.plan = {{0, 1}, {2, 3, 4}} ∧
    (seamOf kiteGraph {0, 4} {1, 2, 3}).card = 2 ∧ (cutsOf kiteGraph kiteA.mapping).card = 2 := by decide +kernel

end GC

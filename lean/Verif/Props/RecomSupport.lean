import Verif.Lemmas.Can
import Verif.Props.DetailedBalance
import Verif.Props.RecomChain
import Verif.Props.RecomFail

/-!
# What recom can propose (C80)

Which re-splits of two adjacent districts can `recom` return?  With the default functions (`random_spanning_tree`,
`find_balanced_edge_cuts_memoization`, `_max_weight_choice` without regions) every balanced and contiguous one, each with positive probability,
as long as the district with the smaller label gets at least two nodes; and no other.  The reason for the exception is that the set of nodes
reported for a balanced cut is the side of the root, and that the root is drawn among the nodes with two neighbours in the tree.
-/

set_option linter.unusedSectionVars false
set_option autoImplicit false

namespace GC

variable {V P S X : Type} [LinearOrder V] [LinearOrder P]

/-! ### Spanning trees -/

/-- Kruskal's algorithm returns the tree whose edges are lighter than all others. -/
theorem kruskal_of_light {G : Graph V} (hG : G.WF) {E : Finset (V × V)} (hE : E ∈ treeSets G) {l : List (ℚ × (V × V))}
    (hl : ∀ e, e ∈ l.map Prod.snd ↔ e ∈ G.edges) (c : ℚ) (hlow : ∀ p ∈ l, p.2 ∈ E → p.1 < c) (hhigh : ∀ p ∈ l, p.2 ∉ E → c ≤ p.1) :
    kruskal l = E := by
  classical
  unfold treeSets at hE
  rw [Finset.mem_filter, Finset.mem_powerset] at hE
  obtain ⟨hsub, hT⟩ := hE
  set L := l.insertionSort (fun a b => a.1 ≤ b.1) with hL
  have hsorted : L.Pairwise (fun a b => a.1 ≤ b.1) := by
    have tr : IsTrans (ℚ × (V × V)) (fun a b => a.1 ≤ b.1) := ⟨fun _ _ _ h h' => le_trans h h'⟩
    have tot : Std.Total (fun a b : ℚ × (V × V) => a.1 ≤ b.1) := ⟨fun a b => le_total a.1 b.1⟩
    exact List.pairwise_insertionSort _ l
  have hLmem : ∀ p, p ∈ L ↔ p ∈ l := fun p => (List.perm_insertionSort _ l).mem_iff
  have hEnd : ∀ e ∈ G.edges, e.1 ∈ G.nodes ∧ e.2 ∈ G.nodes := fun e he => ⟨hG.fst_mem e he, hG.snd_mem e he⟩
  have hsplit : L = L.takeWhile (fun p => decide (p.1 < c)) ++ L.dropWhile (fun p => decide (p.1 < c)) :=
    List.takeWhile_append_dropWhile.symm
  set L1 := L.takeWhile (fun p => decide (p.1 < c)) with hL1
  set L2 := L.dropWhile (fun p => decide (p.1 < c)) with hL2
  have hLG : ∀ p ∈ L, p.2 ∈ G.edges := fun p hp => (hl _).1 (List.mem_map.2 ⟨p, (hLmem p).1 hp, rfl⟩)
  have hL1E : ∀ e ∈ L1.map Prod.snd, e ∈ E := by
    intro e he
    obtain ⟨p, hp, rfl⟩ := List.mem_map.1 he
    have hlt : p.1 < c := takeWhile_lt c p hp
    have hpl : p ∈ L := by rw [hsplit]; exact List.mem_append_left _ hp
    by_contra hn
    exact absurd (hhigh p ((hLmem p).1 hpl) hn) (not_le.2 hlt)
  have hEL1 : ∀ e ∈ E, e ∈ L1.map Prod.snd := by
    intro e he
    obtain ⟨p, hp, rfl⟩ := List.mem_map.1 ((hl e).2 (hsub he))
    have hlt := hlow p hp he
    have hpL := (hLmem p).2 hp
    rw [hsplit] at hpL
    rcases List.mem_append.1 hpL with h | h
    · exact List.mem_map.2 ⟨p, h, rfl⟩
    · exact absurd hlt (not_lt.2 (dropWhile_ge hsorted c p h))
  obtain ⟨hinv1, _⟩ := kruskalFold_inv (N := G.nodes) (L1.map Prod.snd) [] (id, ∅) (fun e he => hEnd e (hsub (hL1E e he)))
    (kruskal_init_inv _)
  rw [List.nil_append] at hinv1
  obtain ⟨hinv, hmono⟩ := kruskalFold_inv (N := G.nodes) (L2.map Prod.snd) (L1.map Prod.snd) _ (fun e he => hEnd e (by
    obtain ⟨p, hp, rfl⟩ := List.mem_map.1 he
    exact hLG p (by rw [hsplit]; exact List.mem_append_right _ hp))) hinv1
  have hF : kruskal l = ((L.map Prod.snd).foldl kruskalStep (id, ∅)).2 := rfl
  rw [← List.foldl_append, ← List.map_append, ← hsplit] at hmono hinv
  rw [← hF] at hmono
  have one : ∀ st : (V → V) × Finset (V × V), ∀ E0 : List (V × V), KruskalInv G.nodes E0 st → (∀ e ∈ E, e ∈ E0) → st.2.card + 1 = G.nodes.card := by
    intro st E0 h h0
    obtain ⟨x, hx⟩ := hT.conn.1
    have himg : G.nodes.image st.1 = {st.1 x} := by
      ext y
      rw [Finset.mem_image, Finset.mem_singleton]
      constructor
      · rintro ⟨v, hv, rfl⟩
        exact kruskal_one_set h (G := ⟨G.nodes, E⟩) (fun e he _ _ => h0 e he) (hT.conn.2 v hv x hx)
      · rintro rfl
        exact ⟨x, hx, rfl⟩
    have hc := h.card
    rw [himg, Finset.card_singleton] at hc
    exact hc
  have c1 := one _ _ hinv1 hEL1
  have c2 := one _ _ hinv (fun e he => by
    rw [hsplit, List.map_append]
    exact List.mem_append_left _ (hEL1 e he))
  have c3 := hT.card
  have e1 : ((L1.map Prod.snd).foldl kruskalStep (id, ∅)).2 = E :=
    Finset.eq_of_subset_of_card_le (fun e he => hL1E e (hinv1.sub e he)) (by simp only at c3; omega)
  rw [e1] at hmono
  refine (Finset.eq_of_subset_of_card_le hmono ?_).symm
  rw [← hF] at c2
  simp only at c3
  omega

theorem can_drawWeights {A : Type} [DecidableEq A] {N : ℕ} (attr : String → V → Option A) (k : V × V → ℕ) (hk : ∀ e, k e < N) :
    ∀ es : List (V × V), Can N (drawWeights (uniRand N) attr Dict.empty es) (es.map (fun e => ((k e : ℚ) / N, e)))
  | [] => can_pure _ _
  | e :: es => by
    unfold drawWeights
    exact (can_random (hk e)).bind ((can_drawWeights attr k hk es).bind (can_pure _ _))

/-- every spanning tree can be drawn -/
theorem can_randomSpanningTree {A : Type} [DecidableEq A] {N : ℕ} (hN : 2 ≤ N) (attr : String → V → Option A) {G : Graph V} (hG : G.WF)
    {E : Finset (V × V)} (hE : E ∈ treeSets G) :
    ∃ t : WTree V, t.graph = ⟨G.nodes, E⟩ ∧ Can N (randomSpanningTree (uniRand N) attr none G) t := by
  have hk := can_drawWeights (N := N) attr (fun e => if e ∈ E then 0 else 1) (fun e => by split_ifs <;> omega) (iterE G.edges)
  set l := (iterE G.edges).map (fun e => (((if e ∈ E then 0 else 1 : ℕ) : ℚ) / N, e)) with hl
  refine ⟨⟨⟨G.nodes, kruskal l⟩, weightOf l⟩, ?_, hk.bind (can_pure _ _)⟩
  have hNpos : (0 : ℚ) < N := by exact_mod_cast (by omega : 0 < N)
  have hpos : (0 : ℚ) < 1 / N := one_div_pos.2 hNpos
  have : kruskal l = E := by
    refine kruskal_of_light hG hE (fun e => ?_) (1 / N) ?_ ?_
    · rw [hl, List.map_map]
      simp
    · intro p hp hpE
      obtain ⟨e, he, rfl⟩ := List.mem_map.1 hp
      simp only at hpE ⊢
      rw [if_pos hpE]
      simpa using hNpos
    · intro p hp hpE
      obtain ⟨e, he, rfl⟩ := List.mem_map.1 hp
      simp only at hpE ⊢
      rw [if_neg hpE]
      simp
  simp only [this]

/-! ### The cuts for a given root -/

/-- the part of `find_balanced_edge_cuts_memoization` after the draw of the root (gerrychain/tree.py:372-424) -/
def memoFrom (R : Rand S) (fuel : ℕ) (h : PopGraph V) (root : V) : M S (List (Cut V)) := do
  let pops ← M.lift (calcPops fuel (successors h.graph root) root h.population)
  memoLoop R fuel h (predecessors h.graph root) (successors h.graph root) false pops.entries []

theorem memoFrom_spec {T : Graph V} (hT : IsTree T) (R : Rand S) (hR : R.Valid) (wt : V → V → Option ℚ) (pop : V → ℚ) (ideal eps : ℚ)
    {fuel : ℕ} (hf : 2 * T.nodes.card ≤ fuel) {root : V} (hr : root ∈ T.nodes) (w : S) :
    ∃ cuts w', memoFrom R fuel (PopGraph.init T.nodes T wt pop ideal eps) root w = (.ok cuts, w') ∧
      cuts.length ≤ T.nodes.card ∧
      (∀ c ∈ cuts, BalancedEdge T pop ideal eps c.edge.1 c.edge.2 ∧ IsSide T c.edge.2 c.edge.1 c.subset ∧ root ∈ c.subset) ∧
      (∀ u v A, BalancedEdge T pop ideal eps u v → IsSide T u v A → root ∈ A → ∃ c ∈ cuts, c.subset = A) := by
  obtain ⟨par, rank, hRt, hpred, hs'⟩ := bfs_rooted hT hr
  have hs : SuccOk T root par (successors T root) := ⟨hs'.1, hs'.2.1, hs'.2.2⟩
  obtain ⟨pops, p1, p2, p3, p4⟩ := calcPops_spec hRt hs pop hf
  have hkey : (pops.entries.map (·.1)).toFinset = T.nodes.erase root := by
    ext y; rw [List.mem_toFinset, p3]
  have hpos : 0 < T.nodes.card := Finset.card_pos.2 ⟨root, hr⟩
  obtain ⟨cuts, w2, h1, hcf⟩ := memoLoop_spec hRt R hR (PopGraph.init T.nodes T wt pop ideal eps)
    (pred := predecessors T root) hpred hs (fuel := fuel) (by omega) false pops.entries ∅ [] w p2 (by
      intro e he
      have := (p3 e.1).1 (List.mem_map.2 ⟨e, he, rfl⟩)
      rw [Finset.mem_erase] at this
      exact ⟨by simp, this.2, this.1, p4 e he⟩) ⟨by simp, by simp, by simp⟩
  rw [Finset.empty_union, hkey] at hcf
  have hbal : ∀ x, x ∈ T.nodes → x ≠ root →
      (memoBal T root par (PopGraph.init T.nodes T wt pop ideal eps) false x ↔ BalancedEdge T pop ideal eps x (par x)) := by
    intro x hx hr
    rw [balancedEdge_iff hRt hx hr, ← near_comm, ← near_comm]
    unfold memoBal
    rw [init_totPop]
    simp only [Bool.false_eq_true, if_false]
    rfl
  have hrs : ∀ x, x ∈ T.nodes → x ≠ root → root ∈ T.nodes \ sub T root par x := by
    intro x hx hxr
    rw [Finset.mem_sdiff]
    refine ⟨hr, fun hm => ?_⟩
    have hle := (mem_sub.1 hm).2.rank_le hRt
    have hroot : ∀ n, ∀ y ∈ T.nodes, rank y ≤ n → rank root ≤ rank y := by
      intro n
      induction n with
      | zero =>
        intro y hy hn
        by_cases hyr : y = root
        · rw [hyr]
        · have := hRt.rank_lt y hy hyr; omega
      | succ n ih =>
        intro y hy hn
        by_cases hyr : y = root
        · rw [hyr]
        · have h1 := hRt.rank_lt y hy hyr
          have := ih (par y) (hRt.par_mem y hy hyr) (by omega)
          omega
    have h2 := hRt.rank_lt x hx hxr
    have h3 := hroot _ (par x) (hRt.par_mem x hx hxr) le_rfl
    omega
  have hside : ∀ x, memoSide T root par (PopGraph.init T.nodes T wt pop ideal eps) false x = T.nodes \ sub T root par x := by
    intro x
    unfold memoSide
    rw [if_neg (by simp)]
    rfl
  refine ⟨cuts, w2, ?_, ?_, ?_, ?_⟩
  · unfold memoFrom
    show ((M.lift (calcPops fuel (successors T root) root pop) : M S _) >>= _) w = _
    rw [p1]
    exact h1
  · have h2 := List.toFinset_card_of_nodup hcf.nodup
    rw [List.length_map] at h2
    rw [← h2]
    refine Finset.card_le_card (fun x hx => ?_)
    obtain ⟨c, hc, rfl⟩ := List.mem_map.1 (List.mem_toFinset.1 hx)
    exact (Finset.mem_erase.1 (hcf.sound c hc).1).2
  · intro c hc
    obtain ⟨a1, a2, a3, a4⟩ := hcf.sound c hc
    rw [Finset.mem_erase] at a1
    rw [a3, a4, hside]
    exact ⟨(hbal _ a1.2 a1.1).1 a2, isSide_compl hRt a1.2 a1.1, hrs _ a1.2 a1.1⟩
  · intro u v A huv hA hrA
    have hm := hT.wf.mem_of_adj huv.1
    rcases hRt.edge u v huv.1 with ⟨h1, rfl⟩ | ⟨h1, rfl⟩
    · exfalso
      rw [hA.unique (isSide_sub hRt hm.1 h1)] at hrA
      exact (Finset.mem_sdiff.1 (hrs u hm.1 h1)).2 hrA
    · obtain ⟨c, hc, hcv⟩ := hcf.complete v (Finset.mem_erase.2 ⟨h1, hm.2⟩) ((hbal v hm.2 h1).2 huv.symm)
      refine ⟨c, hc, ?_⟩
      rw [(hcf.sound c hc).2.2.2, hcv, hside]
      exact (isSide_compl hRt hm.2 h1).unique hA

theorem draws_memoFrom (N fuel : ℕ) (h : PopGraph V) (root : V) : ∃ k, Draws k (memoFrom (uniRand N) fuel h root) := by
  unfold memoFrom
  rcases hp : calcPops fuel (successors h.graph root) root h.population with e | pops
  · exact ⟨0, .done (.error e) (fun t => rfl)⟩
  · exact ⟨_, draws_memoLoop N fuel h (predecessors h.graph root) (successors h.graph root) false pops.entries []⟩

theorem memoBalance_eq (R : Rand S) (h : PopGraph V) : memoBalance R false h =
    (R.choice ((iter h.graph.nodes).filter (fun x => h.graph.degree x > 1)) >>= memoFrom R (2 * h.graph.nodes.card) h) := rfl

/-- for every root of degree at least two the algorithm can return the cuts seen from that root -/
theorem can_memo {N : ℕ} {T : Graph V} (hT : IsTree T) (hN : T.nodes.card ≤ N) (wt : V → V → Option ℚ) (pop : V → ℚ) (ideal eps : ℚ)
    {root : V} (hr : root ∈ T.nodes) (hd : 1 < T.degree root) :
    ∃ cuts, Can N (memoBalance (uniRand N) false (PopGraph.init T.nodes T wt pop ideal eps)) cuts ∧ cuts.length ≤ T.nodes.card ∧
      ∀ u v A, BalancedEdge T pop ideal eps u v → IsSide T u v A → root ∈ A → ∃ c ∈ cuts, c.subset = A := by
  have hpos : 0 < T.nodes.card := Finset.card_pos.2 ⟨root, hr⟩
  have hN0 : 0 < N := lt_of_lt_of_le hpos hN
  obtain ⟨k, hk⟩ := draws_memoFrom N (2 * T.nodes.card) (PopGraph.init T.nodes T wt pop ideal eps) root
  obtain ⟨cuts, hc⟩ := Can.of_draws hN0 hk (fun w => by
    obtain ⟨cuts, w', h, -⟩ := memoFrom_spec hT (uniRand N) (uniRand_valid hN0) wt pop ideal eps le_rfl hr w
    exact ⟨cuts, w', h⟩)
  obtain ⟨t0, -, ht⟩ := id hc
  obtain ⟨cuts', w', h1, h2, -, h4⟩ := memoFrom_spec hT (uniRand N) (uniRand_valid hN0) wt pop ideal eps le_rfl hr (t0 ++ [])
  rw [ht] at h1
  cases h1
  refine ⟨cuts, ?_, h2, h4⟩
  rw [memoBalance_eq]
  refine (can_choice ?_ ?_).bind hc
  · refine le_trans (List.length_filter_le _ _) ?_
    rw [length_iter]
    exact hN
  · rw [List.mem_filter, mem_iter, decide_eq_true_eq]
    exact ⟨hr, hd⟩

/-- every reported subset of a two-sided cut contains at least two nodes -/
theorem memo_two_nodes {T : Graph V} (hT : IsTree T) (R : Rand S) (hR : R.Valid) (wt : V → V → Option ℚ) (pop : V → ℚ) (ideal eps : ℚ)
    {w w' : S} {cuts : List (Cut V)} (h : memoBalance R false (PopGraph.init T.nodes T wt pop ideal eps) w = (.ok cuts, w')) :
    ∀ c ∈ cuts, 2 ≤ c.subset.card := by
  rw [memoBalance_eq] at h
  obtain ⟨root, w1, h1, h2⟩ := M.bind_eq_ok h
  have hm := hR.choice_ok h1
  rw [List.mem_filter, mem_iter, decide_eq_true_eq] at hm
  obtain ⟨hr, hd⟩ := hm
  have hr : root ∈ T.nodes := hr
  have hd : 1 < T.degree root := hd
  obtain ⟨cuts', w2, k1, -, k3, -⟩ := memoFrom_spec hT R hR wt pop ideal eps (le_refl (2 * T.nodes.card)) hr w1
  have h2' : memoFrom R (2 * T.nodes.card) (PopGraph.init T.nodes T wt pop ideal eps) root w1 = (.ok cuts, w') := h2
  rw [h2'] at k1
  cases k1
  intro c hc
  obtain ⟨-, hside, hrc⟩ := k3 c hc
  obtain ⟨y1, hy1, y2, hy2, hne⟩ := Finset.one_lt_card.1 hd
  have hy : ∃ y ∈ T.neighbors root, ¬ (root = c.edge.2 ∧ y = c.edge.1) ∧ ¬ (root = c.edge.1 ∧ y = c.edge.2) := by
    by_cases h1 : (root = c.edge.2 ∧ y1 = c.edge.1) ∨ (root = c.edge.1 ∧ y1 = c.edge.2)
    · refine ⟨y2, hy2, ?_⟩
      by_contra hcon
      have hcon : (root = c.edge.2 ∧ y2 = c.edge.1) ∨ (root = c.edge.1 ∧ y2 = c.edge.2) := by tauto
      rcases h1 with ⟨a1, a2⟩ | ⟨a1, a2⟩ <;> rcases hcon with ⟨b1, b2⟩ | ⟨b1, b2⟩
      · exact hne (a2.trans b2.symm)
      · exact hne (by rw [a2, b2, ← b1, a1])
      · exact hne (by rw [a2, b2, ← b1, a1])
      · exact hne (a2.trans b2.symm)
    · exact ⟨y1, hy1, by tauto⟩
  obtain ⟨y, hy, hyc⟩ := hy
  have hadj : T.Adj root y := (Graph.mem_neighbors hT.wf).1 hy
  have hym := (hT.wf.mem_of_adj hadj).2
  have hyA : y ∈ c.subset := by
    rw [hside] at hrc ⊢
    exact ⟨hym, hrc.2.tail ⟨Graph.cut_adj.2 ⟨hadj, hyc.1, hyc.2⟩, hr, hym⟩⟩
  have hry : root ≠ y := by
    rintro rfl
    obtain ⟨par, rank, hRt, -⟩ := bfs_rooted hT hr
    rcases hRt.edge _ _ hadj with ⟨k, -⟩ | ⟨k, -⟩ <;> exact k rfl
  exact Finset.one_lt_card.2 ⟨root, hrc, y, hyA, hry⟩

/-! ### `bipartition_tree` and `recom` -/

/-- two trees joined by an edge: its sides are the two node sets, and its end in a set of at least two nodes has degree at least two -/
theorem join_sides {G : Graph V} (hG : G.WF) {A B : Finset V} (hAB : Disjoint A B) (hA : A ⊆ G.nodes) (hB : B ⊆ G.nodes)
    (cA : ConnectedOn G A) (cB : ConnectedOn G B) (hA2 : 2 ≤ A.card) (hconn : ConnectedOn G (A ∪ B)) :
    ∃ E ∈ treeSets (G.subgraph (A ∪ B)), ∃ x y, x ∈ A ∧ y ∈ B ∧ IsSide ⟨A ∪ B, E⟩ x y A ∧ IsSide ⟨A ∪ B, E⟩ y x B ∧
      (⟨A ∪ B, E⟩ : Graph V).Adj x y ∧ 1 < (⟨A ∪ B, E⟩ : Graph V).degree x := by
  classical
  obtain ⟨x, hx, y, hy, hxy⟩ := exists_edge_between hconn cA.1 cB.1 hAB
  have tree : ∀ C, C ⊆ G.nodes → ConnectedOn G C → ∃ E, E ∈ treeSets (G.subgraph C) := by
    intro C hC cC
    refine exists_tree (hG.subgraph C) ?_
    have := (connectedOn_subgraph (G := G) hC).2 cC
    exact this
  obtain ⟨E1, h1⟩ := tree A hA cA
  obtain ⟨E2, h2⟩ := tree B hB cB
  obtain ⟨e, he, hexy⟩ : ∃ e, e ∈ seamOf G A B ∧ (e = (x, y) ∨ e = (y, x)) := by
    rcases hxy with h | h
    · exact ⟨_, mem_seamOf.2 ⟨h, .inl ⟨hx, hy⟩⟩, .inl rfl⟩
    · exact ⟨_, mem_seamOf.2 ⟨h, .inr ⟨hy, hx⟩⟩, .inr rfl⟩
  obtain ⟨j1, j2, j3, -⟩ := isTree_join hG hAB hA hB h1 h2 he
  have hd : ∀ z, z ∈ A → z ∉ B := fun _ hz => Finset.disjoint_left.1 hAB hz
  obtain ⟨hs, hT⟩ := (mem_treeSets (Finset.union_subset hA hB)).1 j1
  set E := insert e (E1 ∪ E2) with hE
  have huniq : ∀ a ∈ A, ∀ b ∈ B, Graph.Adj (⟨A ∪ B, E⟩ : Graph V) a b → a = x ∧ b = y := by
    intro a ha b hb hab
    have : ∀ f ∈ E, f ∈ seamOf G A B → f = e := fun f hf hf' => by
      have := Finset.mem_inter.2 ⟨hf, hf'⟩
      rw [j2] at this
      exact Finset.mem_singleton.1 this
    rcases hab with h | h
    · have := this _ h (mem_seamOf.2 ⟨(hs _ h).1, .inl ⟨ha, hb⟩⟩)
      rcases hexy with h' | h' <;> rw [h'] at this <;> cases this
      · exact ⟨rfl, rfl⟩
      · exact absurd hb (hd _ hx)
    · have := this _ h (mem_seamOf.2 ⟨(hs _ h).1, .inr ⟨hb, ha⟩⟩)
      rcases hexy with h' | h' <;> rw [h'] at this <;> cases this
      · exact absurd hb (hd _ hx)
      · exact ⟨rfl, rfl⟩
  have hadj : Graph.Adj (⟨A ∪ B, E⟩ : Graph V) x y := by
    rcases hexy with h' | h'
    · exact .inl (by rw [← h']; exact Finset.mem_insert_self _ _)
    · exact .inr (by rw [← h']; exact Finset.mem_insert_self _ _)
  have sA := side_of_seam hG hAB hA hB cA.1 j1 hx hy huniq
  have sB : IsSide ⟨A ∪ B, E⟩ y x B := by
    have j1' : E ∈ treeSets (G.subgraph (B ∪ A)) := by rw [Finset.union_comm]; exact j1
    have := side_of_seam hG hAB.symm hB hA cB.1 j1' hy hx (fun a ha b hb hab => by
      have := huniq b hb a ha (by rw [Finset.union_comm] at hab; exact hab.symm)
      exact ⟨this.2, this.1⟩)
    rw [Finset.union_comm] at this
    exact this
  refine ⟨E, j1, x, y, hx, hy, sA, sB, hadj, ?_⟩
  -- another neighbour inside `A`
  obtain ⟨z, hz, hzx⟩ : ∃ z ∈ A, z ≠ x := by
    obtain ⟨a, ha, b, hb, hne⟩ := Finset.one_lt_card.1 hA2
    by_cases h : a = x
    · exact ⟨b, hb, fun h' => hne (h.trans h'.symm)⟩
    · exact ⟨a, ha, h⟩
  obtain ⟨s1, t1⟩ := (mem_treeSets hA).1 h1
  obtain ⟨z', hz', hxz'⟩ : ∃ z' ∈ A, Graph.Adj (⟨A, E1⟩ : Graph V) x z' := by
    have hr := t1.conn.2 x hx z hz
    rcases Relation.ReflTransGen.cases_head hr with h | ⟨z', h, -⟩
    · exact absurd h.symm hzx
    · exact ⟨z', h.2.2, h.1⟩
  have hadj' : Graph.Adj (⟨A ∪ B, E⟩ : Graph V) x z' := by
    rcases hxz' with h | h
    · exact .inl (Finset.mem_insert_of_mem (Finset.mem_union_left _ h))
    · exact .inr (Finset.mem_insert_of_mem (Finset.mem_union_left _ h))
  refine Finset.one_lt_card.2 ⟨y, (Graph.mem_neighbors hT.wf).2 hadj, z', (Graph.mem_neighbors hT.wf).2 hadj', ?_⟩
  rintro rfl
  exact hd _ hz' hy

/-- two trees joined by an edge: the edge is balanced, its sides are the two node sets, and its end in a set of at least two nodes has degree at
least two -/
theorem join_facts {G : Graph V} (hG : G.WF) {A B : Finset V} (hAB : Disjoint A B) (hA : A ⊆ G.nodes) (hB : B ⊆ G.nodes)
    (cA : ConnectedOn G A) (cB : ConnectedOn G B) (hA2 : 2 ≤ A.card) (hconn : ConnectedOn G (A ∪ B)) {pop : V → ℚ} {target eps : ℚ}
    (pA : Near target eps (popOf pop A)) (pB : Near target eps (popOf pop B)) :
    ∃ E ∈ treeSets (G.subgraph (A ∪ B)), ∃ x y, x ∈ A ∧ IsSide ⟨A ∪ B, E⟩ x y A ∧ BalancedEdge ⟨A ∪ B, E⟩ pop target eps x y ∧
      1 < (⟨A ∪ B, E⟩ : Graph V).degree x := by
  obtain ⟨E, hE, x, y, hx, -, sA, sB, hadj, hd⟩ := join_sides hG hAB hA hB cA cB hA2 hconn
  exact ⟨E, hE, x, y, hx, sA, ⟨hadj, A, B, sA, sB, pA, pB⟩, hd⟩

/-- `bipartition_tree` can return every balanced connected set of at least two nodes with a balanced connected complement -/
theorem can_bipartition {A' : Type} [DecidableEq A'] {N : ℕ} (attr : String → V → Option A') (nodeRepeats : ℕ) (maxAttempts : Option ℕ)
    (hmax : maxAttempts ≠ some 0) (allow : Bool) (fuel : ℕ) (hf : 0 < fuel) {G : Graph V} (hG : G.WF) {A B : Finset V} (hAB : Disjoint A B)
    (hA : A ⊆ G.nodes) (hB : B ⊆ G.nodes) (cA : ConnectedOn G A) (cB : ConnectedOn G B) (hA2 : 2 ≤ A.card) (hconn : ConnectedOn G (A ∪ B))
    (hN : (A ∪ B).card ≤ N) {pop : V → ℚ} {target eps : ℚ} (pA : Near target eps (popOf pop A)) (pB : Near target eps (popOf pop B)) :
    Can N (bipMethod (uniRand N) (randomSpanningTree (uniRand N) attr none) nodeRepeats maxAttempts attr none allow fuel pop
      (G.subgraph (A ∪ B)) target eps false) (some A) := by
  classical
  obtain ⟨E, hE, x, y, hx, hside, hbal, hdeg⟩ := join_facts hG hAB hA hB cA cB hA2 hconn pA pB
  have hU : A ∪ B ⊆ G.nodes := Finset.union_subset hA hB
  have hn := subgraph_nodes hU
  have hN2 : 2 ≤ N := by
    have := Finset.card_le_card (Finset.subset_union_left (s₁ := A) (s₂ := B))
    omega
  obtain ⟨t, htg, ht⟩ := can_randomSpanningTree hN2 attr (hG.subgraph (A ∪ B)) hE
  rw [hn] at htg
  have hT := ((mem_treeSets hU).1 hE).2
  obtain ⟨cuts, hc1, hc2, hc3⟩ := can_memo (N := N) hT hN t.weight pop target eps (Finset.mem_union_left _ hx) hdeg
  obtain ⟨c, hc, hcA⟩ := hc3 x y A hbal hside hx
  have hstep : Can N (bipStep ⟨randomSpanningTree (uniRand N) attr none, memoBalance (uniRand N) false, nodeRepeats, maxAttempts⟩
      (G.subgraph (A ∪ B)) pop target eps t 0)
      (t, 0, PopGraph.init (A ∪ B) ⟨A ∪ B, E⟩ t.weight pop target eps, cuts) := by
    unfold bipStep
    refine Can.bind (x := (t, 0)) ?_ ?_
    · split_ifs
      · exact ht.bind (can_pure _ _)
      · exact can_pure _ _
    · simp only [hn, htg]
      exact hc1.bind (can_pure _ _)
  have hloop : Can N (bipLoop ⟨randomSpanningTree (uniRand N) attr none, memoBalance (uniRand N) false, nodeRepeats, maxAttempts⟩
      (fun _ => regionChoice (uniRand N) attr none) allow (G.subgraph (A ∪ B)) pop target eps fuel t 0 0) A := by
    obtain ⟨n, rfl⟩ : ∃ n, fuel = n + 1 := ⟨fuel - 1, by omega⟩
    unfold bipLoop
    have hatt : attemptsLeft maxAttempts 0 = true := by
      unfold attemptsLeft
      rcases maxAttempts with _ | m
      · rfl
      · have : m ≠ 0 := fun h => hmax (by rw [h])
        simp; omega
    simp only [hatt, if_true]
    refine hstep.bind ?_
    simp only
    rw [if_pos (List.ne_nil_of_mem hc), ← hcA]
    refine Can.bind (x := c) ?_ (can_pure _ _)
    exact can_choice (hc2.trans hN) hc
  unfold bipMethod bipartitionTree
  exact (ht.bind hloop).bind (can_pure _ _)

/-- the set returned by `bipartition_tree` with two-sided cuts has at least two nodes -/
theorem bip_two_nodes {A' : Type} [DecidableEq A'] {R : Rand S} (hR : R.Valid) {spanFn : Graph V → M S (WTree V)} (hspan : SpanOk spanFn)
    (nodeRepeats : ℕ) (maxAttempts : Option ℕ) (attr : String → V → Option A') (surcharge : Option (Dict String ℚ)) (allow : Bool) (fuel : ℕ)
    {H : Graph V} (hH : H.WF) (hconn : ConnectedOn H H.nodes) {pop : V → ℚ} {target eps : ℚ} {w w' : S} {A : Finset V}
    (h : bipMethod R spanFn nodeRepeats maxAttempts attr surcharge allow fuel pop H target eps false w = (.ok (some A), w')) : 2 ≤ A.card := by
  have hcuts : ∀ (t : WTree V) w cuts w', TreeOk H t.graph →
      memoBalance R false (PopGraph.init H.nodes t.graph t.weight pop target eps) w = (.ok cuts, w') → ∀ c ∈ cuts, 2 ≤ c.subset.card := by
    intro t w cuts w' ht hc
    rcases ht with ht | ht
    · rw [← ht.nodes] at hc
      exact memo_two_nodes ht.tree R hR _ _ _ _ hc
    · rw [(balanceOk_memo R hR).2 _ _ _ _ _ _ _ _ _ _ ht.2 hc]
      simp
  have hloop : ∀ (fuel : ℕ) (t : WTree V) (r a : ℕ) (w w' : S) (A : Finset V), TreeOk H t.graph →
      bipLoop ⟨spanFn, memoBalance R false, nodeRepeats, maxAttempts⟩ (fun _ => regionChoice R attr surcharge) allow H pop target eps fuel t r a w =
        (.ok A, w') → 2 ≤ A.card := by
    intro fuel
    induction fuel with
    | zero => intro t r a w w' A _ h; cases h
    | succ n ih =>
      intro t r a w w' A ht h
      unfold bipLoop at h
      by_cases ha : attemptsLeft maxAttempts a = true
      · rw [if_pos ha] at h
        obtain ⟨⟨t1, r1, h1, cuts⟩, w1, k1, k2⟩ := M.bind_eq_ok h
        have hts : TreeOk H t1.graph ∧ ∀ c ∈ cuts, 2 ≤ c.subset.card := by
          unfold bipStep at k1
          obtain ⟨⟨t2, r2⟩, w2, j1, j2⟩ := M.bind_eq_ok k1
          have ht2 : TreeOk H t2.graph := by
            by_cases hr : r = nodeRepeats
            · rw [if_pos hr] at j1
              obtain ⟨t3, w3, i1, i2⟩ := M.bind_eq_ok j1
              cases i2
              exact hspan H w _ _ hH hconn i1
            · rw [if_neg hr] at j1
              cases j1
              exact ht
          simp only at j2
          obtain ⟨cuts', w3, i1, i2⟩ := M.bind_eq_ok j2
          cases i2
          exact ⟨ht2, hcuts _ _ _ _ ht2 i1⟩
        simp only at k2
        by_cases hc : cuts ≠ []
        · rw [if_pos hc] at k2
          obtain ⟨c, w2, j1, j2⟩ := M.bind_eq_ok k2
          cases j2
          exact hts.2 c (choiceOk_region R hR attr surcharge h1 _ _ _ _ j1)
        · rw [if_neg hc] at k2
          exact ih _ _ _ _ _ _ hts.1 k2
      · rw [if_neg ha] at h
        rcases allow with _ | _ <;> cases h
  unfold bipMethod at h
  obtain ⟨A1, w1, h1, h2⟩ := M.bind_eq_ok h
  cases h2
  unfold bipartitionTree at h1
  obtain ⟨t, w2, h3, h4⟩ := M.bind_eq_ok h1
  exact hloop fuel t 0 0 w2 w' A (hspan H _ _ _ hH hconn h3) h4

theorem near_of_bounds {target eps x : ℚ} (h1 : target * (1 - eps) ≤ x) (h2 : x ≤ target * (1 + eps)) : Near target eps x := by
  unfold Near
  rw [abs_le]
  constructor <;> linarith

/-- two plans are the same when they agree on every node -/
def SamePlan (a b : Assignment V P) : Prop := ∀ v, a.mapping.get? v = b.mapping.get? v

/-- the merged districts before and after a recombination are the same set of nodes -/
theorem Recombined.union {G : Graph V} {pop : V → ℚ} {target eps : ℚ} {p q : P} {a b : Assignment V P} (h : Recombined G pop target eps p q a b)
    (ha : a.Coherent) (hb : b.Coherent) {s t A B : Finset V} (hs : a.parts.get? p = some s) (ht : a.parts.get? q = some t)
    (hA : b.parts.get? p = some A) (hB : b.parts.get? q = some B) : s ∪ t = A ∪ B := by
  ext v
  rw [Finset.mem_union, Finset.mem_union, ha.agree p s hs, ha.agree q t ht, hb.agree p A hA, hb.agree q B hB]
  constructor
  · exact h.inside v
  · intro hv
    by_contra hn
    rw [not_or] at hn
    rw [h.outside v hn.1 hn.2] at hv
    tauto

/-- one pair of districts can be split in every way in which the first of the two has at least two nodes -/
theorem can_recomPair {A' : Type} [DecidableEq A'] {N : ℕ} (attr : String → V → Option A') (nodeRepeats : ℕ) (maxAttempts : Option ℕ)
    (hmax : maxAttempts ≠ some 0) (allow : Bool) (bipFuel : ℕ) (hf : 0 < bipFuel) {G : Graph V} (hG : G.WF) {a b : Assignment V P}
    (ha : a.Coherent) (hcov : a.Covers G.nodes) (hc : ContiguousPlan G a) (hb : b.Coherent) {pop : V → ℚ} {target eps : ℚ} {p q : P}
    (h : Recombined G pop target eps p q a b) {A : Finset V} (hA : b.parts.get? p = some A) (hA2 : 2 ≤ A.card) (hN : G.nodes.card ≤ N) :
    ∃ f b', Can N (recomPair (bipMethod (uniRand N) (randomSpanningTree (uniRand N) attr none) nodeRepeats maxAttempts attr none allow bipFuel pop)
      G a pop target eps (p, q)) f ∧ f.WF ∧ a.flip f = .ok b' ∧ SamePlan b' b := by
  obtain ⟨A', hA', -, cA, lA, uA⟩ := h.new p (.inl rfl)
  rw [hA] at hA'; cases hA'
  obtain ⟨B, hB, -, cB, lB, uB⟩ := h.new q (.inr rfl)
  have hkp : p ∈ a.parts.keys := by rw [← h.keys]; exact Dict.mem_keys_iff.2 ⟨_, hA⟩
  have hkq : q ∈ a.parts.keys := by rw [← h.keys]; exact Dict.mem_keys_iff.2 ⟨_, hB⟩
  obtain ⟨s, hs⟩ := Dict.mem_keys_iff.1 hkp
  obtain ⟨t, ht⟩ := Dict.mem_keys_iff.1 hkq
  have hU := h.union ha hb hs ht hA hB
  have mA := hb.agree p A hA
  have mB := hb.agree q B hB
  have hAB : Disjoint A B := by
    rw [Finset.disjoint_left]
    intro v h1 h2
    rw [mA] at h1; rw [mB] at h2
    rw [h1] at h2
    exact h.ne (Option.some.inj h2)
  have hsub : A ∪ B ⊆ G.nodes := by
    rw [← hU]
    intro v hv
    rw [← hcov v, Dict.mem_keys_iff]
    rw [Finset.mem_union, ha.agree p s hs, ha.agree q t ht] at hv
    rcases hv with hv | hv <;> exact ⟨_, hv⟩
  have hconn : ConnectedOn G (A ∪ B) := by
    obtain ⟨u, v, h3, h4, h5⟩ := h.joined
    rw [← hU]
    exact connectedOn_union (hc p s hs) (hc q t ht) ((ha.agree p s hs u).2 h4) ((ha.agree q t ht v).2 h5) h3
  have hn := subgraph_nodes hsub
  have hm := can_bipartition (N := N) attr nodeRepeats maxAttempts hmax allow bipFuel hf hG hAB (Finset.union_subset_left hsub)
    (Finset.union_subset_right hsub) cA cB hA2 hconn ((Finset.card_le_card hsub).trans hN) (pop := pop) (near_of_bounds lA uA) (near_of_bounds lB uB)
  have hdiff : (A ∪ B) \ A = B := by rw [Finset.union_sdiff_left, Finset.sdiff_eq_self_of_disjoint hAB.symm]
  obtain ⟨f1, e1, -, g1⟩ := (assignPart_cases pop target eps (Dict.empty : Dict V P) A p).resolve_right (fun k => k.2 ⟨lA, uA⟩)
  obtain ⟨f, e2, -, g2⟩ := (assignPart_cases pop target eps f1 B q).resolve_right (fun k => k.2 ⟨lB, uB⟩)
  have hfwf : f.WF := assignPart_wf (assignPart_wf Dict.wf_empty e1) e2
  have hcan : Can N (recomPair (bipMethod (uniRand N) (randomSpanningTree (uniRand N) attr none) nodeRepeats maxAttempts attr none allow bipFuel pop)
      G a pop target eps (p, q)) f := by
    unfold recomPair
    refine Can.bind (can_lift N (x := A ∪ B) ?_) ?_
    · unfold mergedNodes
      simp only [Dict.get_eq_ok_iff.2 hs, Dict.get_eq_ok_iff.2 ht]
      exact congrArg Except.ok hU
    · unfold epsilonTreeBipartition lastTwo
      simp only [hn]
      have hself : (G.subgraph (A ∪ B)).subgraph (A ∪ B) = G.subgraph (A ∪ B) := by
        have := Graph.subgraph_self (hG.subgraph (A ∪ B))
        rw [hn] at this
        exact this
      rw [hself]
      refine hm.bind (Can.bind (can_lift N (x := A) rfl) (Can.bind (can_lift N e1) ?_))
      simp only [hdiff]
      exact (can_lift N e2).bind (can_pure _ _)
  have hget : ∀ v, f.get? v = if v ∈ B then some q else if v ∈ A then some p else none := by
    intro v
    rw [g2, g1]
    simp
  rcases hfl : a.flip f with e | b'
  · exfalso
    rcases (flip_error ha hfwf hfl).2 with ⟨v, hv, hv'⟩ | ⟨x, hx, hx'⟩
    · obtain ⟨y, hy⟩ := Dict.mem_keys_iff.1 hv
      rw [hget] at hy
      have : v ∈ A ∪ B := by
        rw [Finset.mem_union]
        by_contra hn
        rw [not_or] at hn
        rw [if_neg hn.2, if_neg hn.1] at hy
        cases hy
      exact hv' ((hcov v).2 (hsub this))
    · obtain ⟨v, hv⟩ := Dict.mem_values_iff hfwf |>.1 hx
      rw [hget] at hv
      split_ifs at hv <;> cases hv
      · exact hx' hkq
      · exact hx' hkp
  refine ⟨f, b', hcan, hfwf, hfl, fun v => ?_⟩
  rw [(flip_ok ha hfwf hfl).get?, hget]
  by_cases h1 : v ∈ B
  · rw [if_pos h1, (mB v).1 h1]; rfl
  · rw [if_neg h1]
    by_cases h2 : v ∈ A
    · rw [if_pos h2, (mA v).1 h2]; rfl
    · rw [if_neg h2]
      have h3 : v ∉ s ∪ t := by rw [hU, Finset.mem_union]; tauto
      rw [Finset.mem_union, ha.agree p s hs, ha.agree q t ht, not_or] at h3
      rw [h.outside v h3.1 h3.2]
      rfl

theorem Can.onReselect {α : Type} {N : ℕ} {m h : M Tape α} {x : α} (hm : Can N m x) : Can N (M.onReselect m h) x := by
  obtain ⟨t, h1, h2⟩ := hm
  refine ⟨t, h1, fun rest => ?_⟩
  unfold M.onReselect
  rw [h2]

/-- recombinations depend on the nodes of the new plan only -/
theorem Recombined.congr {G : Graph V} {pop : V → ℚ} {target eps : ℚ} {p q : P} {a b b' : Assignment V P} (h : Recombined G pop target eps p q a b)
    (hb : b.Coherent) (hb' : b'.Coherent) (hk : b'.parts.keys = b.parts.keys) (hs : SamePlan b b') :
    Recombined G pop target eps p q a b' ∧ ∀ x, b'.parts.get? x = b.parts.get? x := by
  have hp : ∀ x, b'.parts.get? x = b.parts.get? x := by
    intro x
    rcases h1 : b.parts.get? x with _ | s
    · rw [Dict.get?_eq_none_iff] at h1 ⊢
      rwa [hk]
    · have : x ∈ b'.parts.keys := by rw [hk]; exact Dict.mem_keys_iff.2 ⟨_, h1⟩
      obtain ⟨t, ht⟩ := Dict.mem_keys_iff.1 this
      rw [ht]
      congr 1
      ext v
      rw [hb'.agree x t ht, hb.agree x s h1, hs v]
  refine ⟨⟨h.ne, h.joined, fun v hv => ?_, fun v h1 h2 => ?_, hk.trans h.keys, fun x h1 h2 => ?_, fun x hx => ?_⟩, hp⟩
  · rw [← hs v]; exact h.inside v hv
  · rw [← hs v]; exact h.outside v h1 h2
  · rw [hp]; exact h.others x h1 h2
  · rw [hp]; exact h.new x hx

/-- **C80** (completeness) Every balanced and contiguous re-split of two adjacent districts in which the district with the smaller label
has at least two nodes is returned by `recom` for some draws of the generator. -/
theorem C80_complete {A' : Type} [DecidableEq A'] {N : ℕ} (attr : String → V → Option A') (nodeRepeats : ℕ) (maxAttempts : Option ℕ)
    (hmax : maxAttempts ≠ some 0) (allow : Bool) (bipFuel : ℕ) (hf : 0 < bipFuel) {G : Graph V} (hG : G.WF) {a b : Assignment V P}
    (ha : a.Coherent) (hcov : a.Covers G.nodes) (hc : ContiguousPlan G a) (hb : b.Coherent) {pop : V → ℚ} {target eps : ℚ} {p q : P}
    (hpq : p < q) (h : Recombined G pop target eps p q a b) {A : Finset V} (hA : b.parts.get? p = some A) (hA2 : 2 ≤ A.card)
    (hN : G.nodes.card ≤ N) (hN' : (cutsOf G a.mapping).card ≤ N) (fuel : ℕ) (hfuel : 0 < fuel) :
    ∃ f b', Can N (recomLoop (uniRand N)
        (bipMethod (uniRand N) (randomSpanningTree (uniRand N) attr none) nodeRepeats maxAttempts attr none allow bipFuel pop)
        G a (cutsOf G a.mapping) pop target eps fuel ∅) f ∧ a.flip f = .ok b' ∧ SamePlan b' b := by
  obtain ⟨f, b', h1, -, h2, h3⟩ := can_recomPair attr nodeRepeats maxAttempts hmax allow bipFuel hf hG ha hcov hc hb h hA hA2 hN
  refine ⟨f, b', ?_, h2, h3⟩
  obtain ⟨u, v, huv, hu, hv⟩ := h.joined
  have hne : u ≠ v := by
    rintro rfl
    rw [hu] at hv
    exact hpq.ne (Option.some.inj hv)
  obtain ⟨e, he, hl⟩ : ∃ e ∈ cutsOf G a.mapping, ∃ pq, endLabels a e = .ok pq ∧ sortPair pq = (p, q) := by
    rcases lt_or_gt_of_ne hne with hlt | hlt
    · refine ⟨(u, v), mem_cutsOf.2 ⟨⟨hlt.le, huv⟩, ?_⟩, (p, q), ?_, ?_⟩
      · simp only [hu, hv]
        exact fun k => hpq.ne (Option.some.inj k)
      · unfold endLabels
        simp only [Dict.get_eq_ok_iff.2 hu, Dict.get_eq_ok_iff.2 hv]
        rfl
      · unfold sortPair; simp [hpq.le]
    · refine ⟨(v, u), mem_cutsOf.2 ⟨⟨hlt.le, huv.symm⟩, ?_⟩, (q, p), ?_, ?_⟩
      · simp only [hu, hv]
        exact fun k => hpq.ne' (Option.some.inj k)
      · unfold endLabels
        simp only [Dict.get_eq_ok_iff.2 hu, Dict.get_eq_ok_iff.2 hv]
        rfl
      · unfold sortPair; simp [hpq]
  obtain ⟨pq, hl1, hl2⟩ := hl
  obtain ⟨fuel, rfl⟩ := Nat.exists_eq_succ_of_ne_zero hfuel.ne'
  have hpos : (∅ : Finset (P × P)).card < totPairs a.parts.keys.length := by
    rw [Finset.card_empty, ← card_labelPairs ha]
    exact Finset.card_pos.2 ⟨_, sortPair_mem_labelPairs ha he hl1⟩
  show Can N (recomLoop _ _ _ _ _ _ _ _ (fuel + 1) _) f
  rw [recomLoop_succ, if_pos hpos]
  refine Can.bind (can_choice (by rw [length_iterE]; exact hN') (mem_iterE.2 he)) (Can.bind (can_lift N hl1) ?_)
  rw [if_neg (Finset.notMem_empty _), hl2]
  exact h1.onReselect

/-- the first of the two new districts is the set returned by the bipartition -/
theorem recomPair_first {method : Method V S} {G : Graph V} (hG : G.WF) {a b : Assignment V P} (ha : a.Coherent) (hcov : a.Covers G.nodes)
    {pop : V → ℚ} {target eps : ℚ} {p q : P} {w w' : S} {f : Dict V P}
    (h : recomPair method G a pop target eps (p, q) w = (.ok f, w')) (hb : a.flip f = .ok b) {D : Finset V} (hD : b.parts.get? p = some D) :
    ∃ s t A w1, a.parts.get? p = some s ∧ a.parts.get? q = some t ∧ method (G.subgraph (s ∪ t)) target eps false w = (.ok (some A), w1) ∧
      A ⊆ D := by
  unfold recomPair at h
  obtain ⟨u, w1, h1, h2⟩ := M.bind_eq_ok h
  obtain ⟨h1', rfl⟩ := M.lift_eq_ok h1
  obtain ⟨s, t, hs, ht, rfl⟩ := mergedNodes_ok h1'
  have hsub : s ∪ t ⊆ G.nodes := by
    intro v hv
    rw [← hcov v, Dict.mem_keys_iff]
    rw [Finset.mem_union, ha.agree p s hs, ha.agree q t ht] at hv
    rcases hv with hv | hv <;> exact ⟨_, hv⟩
  have hn := subgraph_nodes hsub
  have hfwf : f.WF := epsilon_wf h2
  unfold epsilonTreeBipartition lastTwo at h2
  simp only [hn] at h2
  have hself : (G.subgraph (s ∪ t)).subgraph (s ∪ t) = G.subgraph (s ∪ t) := by
    have := Graph.subgraph_self (hG.subgraph (s ∪ t))
    rw [hn] at this
    exact this
  rw [hself] at h2
  obtain ⟨r, w2, g1, g2⟩ := M.bind_eq_ok h2
  obtain ⟨A, w3, g3, g4⟩ := M.bind_eq_ok g2
  obtain ⟨g3', rfl⟩ := M.lift_eq_ok g3
  cases notNone_eq_ok g3'
  obtain ⟨⟨f1, x1⟩, w4, g5, g6⟩ := M.bind_eq_ok g4
  obtain ⟨g5', rfl⟩ := M.lift_eq_ok g5
  obtain ⟨⟨f2, x2⟩, w5, g7, g8⟩ := M.bind_eq_ok g6
  obtain ⟨g7', rfl⟩ := M.lift_eq_ok g7
  cases g8
  refine ⟨s, t, A, _, hs, ht, g1, fun v hv => ?_⟩
  have hfl := flip_ok ha hfwf hb
  rw [hfl.coherent.agree p D hD, hfl.get?, (assignPart_ok g7').2.2, (assignPart_ok g5').2.2, if_pos hv,
    if_neg (by rw [Finset.mem_sdiff]; tauto)]
  rfl

/-- **C80** (soundness) For every generator and every sampler of spanning trees: what `recom` returns re-splits two adjacent districts, and the
district with the smaller label has at least two nodes. -/
theorem C80_sound {A' : Type} [DecidableEq A'] {R : Rand S} (hR : R.Valid) {spanFn : Graph V → M S (WTree V)} (hspan : SpanOk spanFn)
    (attr : String → V → Option A') (surcharge : Option (Dict String ℚ)) (nodeRepeats : ℕ) (maxAttempts : Option ℕ)
    (allow : Bool) (bipFuel : ℕ) {G : Graph V} (hG : G.WF) {a b : Assignment V P}
    (ha : a.Coherent) (hcov : a.Covers G.nodes) (hc : ContiguousPlan G a) {pop : V → ℚ} {target eps : ℚ} {fuel : ℕ} {w w' : S} {f : Dict V P}
    (h : recomLoop R (bipMethod R spanFn nodeRepeats maxAttempts attr surcharge allow bipFuel pop)
        G a (cutsOf G a.mapping) pop target eps fuel ∅ w = (.ok f, w')) (hb : a.flip f = .ok b) :
    ∃ p q A, p < q ∧ Recombined G pop target eps p q a b ∧ b.parts.get? p = some A ∧ 2 ≤ A.card := by
  obtain ⟨e, he, pq, w1, h1, h2⟩ := recomLoop_ok hR h
  obtain ⟨hne, hj⟩ := ends_of_cut he h1
  have hrec := recomPair_recombined (goodMethod_bipartition R hR spanFn hspan nodeRepeats maxAttempts attr surcharge allow bipFuel pop)
    hG ha hcov hc hne hj h2 hb
  obtain ⟨D, hD, -⟩ := hrec.new _ (.inl rfl)
  refine ⟨_, _, D, lt_of_le_of_ne (sortPair_le pq) hne, hrec, hD, ?_⟩
  obtain ⟨s, t, A, w2, hs, ht, hm, hAD⟩ := recomPair_first hG ha hcov h2 hb hD
  have hsub : s ∪ t ⊆ G.nodes := by
    intro v hv
    rw [← hcov v, Dict.mem_keys_iff]
    rw [Finset.mem_union, ha.agree _ s hs, ha.agree _ t ht] at hv
    rcases hv with hv | hv <;> exact ⟨_, hv⟩
  have hconn : ConnectedOn G (s ∪ t) := by
    obtain ⟨u, v, h3, h4, h5⟩ := hj
    exact connectedOn_union (hc _ s hs) (hc _ t ht) ((ha.agree _ s hs u).2 h4) ((ha.agree _ t ht v).2 h5) h3
  have hcH : ConnectedOn (G.subgraph (s ∪ t)) (G.subgraph (s ∪ t)).nodes := by
    have := (connectedOn_subgraph (G := G) hsub).2 hconn
    rw [subgraph_nodes hsub] at this ⊢
    exact this
  exact (bip_two_nodes hR hspan nodeRepeats maxAttempts attr surcharge allow bipFuel (hG.subgraph _) hcH hm).trans (Finset.card_le_card hAD)

/-- **C80** The plans that `recom` can return are exactly the balanced and contiguous re-splits of two adjacent districts in which the
district with the smaller label has at least two nodes; each of them has positive probability. -/
theorem C80_recom_support_partial {A' : Type} [DecidableEq A'] {N : ℕ} (attr : String → V → Option A') (nodeRepeats : ℕ) (maxAttempts : Option ℕ)
    (hmax : maxAttempts ≠ some 0) (allow : Bool) (bipFuel : ℕ) (hf : 0 < bipFuel) {G : Graph V} (hG : G.WF) {a b : Assignment V P}
    (ha : a.Coherent) (hcov : a.Covers G.nodes) (hc : ContiguousPlan G a) (hb : b.Coherent) (hk : b.parts.keys = a.parts.keys)
    {pop : V → ℚ} {target eps : ℚ} (hN0 : 0 < N) (hN : G.nodes.card ≤ N) (hN' : (cutsOf G a.mapping).card ≤ N) (fuel : ℕ) (hfuel : 0 < fuel) :
    (∃ f b', a.flip f = .ok b' ∧ SamePlan b' b ∧ ∃ L0, ∀ L, L0 ≤ L → 0 < prob N L (recomLoop (uniRand N)
        (bipMethod (uniRand N) (randomSpanningTree (uniRand N) attr none) nodeRepeats maxAttempts attr none allow bipFuel pop)
        G a (cutsOf G a.mapping) pop target eps fuel ∅) (fun r => r = .ok f)) ↔
    ∃ p q A, p < q ∧ Recombined G pop target eps p q a b ∧ b.parts.get? p = some A ∧ 2 ≤ A.card := by
  constructor
  · rintro ⟨f, b', h1, h2, L0, h3⟩
    have h4 := h3 L0 le_rfl
    obtain ⟨w, w', h5⟩ : ∃ w w', recomLoop (uniRand N)
        (bipMethod (uniRand N) (randomSpanningTree (uniRand N) attr none) nodeRepeats maxAttempts attr none allow bipFuel pop)
        G a (cutsOf G a.mapping) pop target eps fuel ∅ w = (.ok f, w') := by
      obtain ⟨w, hw⟩ := exists_of_prob_pos h4
      exact ⟨w, _, Prod.ext hw rfl⟩
    obtain ⟨p, q, A, g1, g2, g3, g4⟩ := C80_sound (uniRand_valid hN0) (spanOk_random (uniRand_valid hN0) attr none) attr none nodeRepeats maxAttempts allow bipFuel
      hG ha hcov hc h5 h1
    have hfwf : f.WF := by
      obtain ⟨e, he, pq, w1, k1, k2⟩ := recomLoop_ok (uniRand_valid hN0) h5
      unfold recomPair at k2
      obtain ⟨u, w2, k3, k4⟩ := M.bind_eq_ok k2
      exact epsilon_wf k4
    obtain ⟨g5, g6⟩ := g2.congr (flip_ok ha hfwf h1).coherent hb (hk.trans g2.keys.symm) h2
    exact ⟨p, q, A, g1, g5, (g6 p).trans g3, g4⟩
  · rintro ⟨p, q, A, h1, h2, h3, h4⟩
    obtain ⟨f, b', g1, g2, g3⟩ := C80_complete attr nodeRepeats maxAttempts hmax allow bipFuel hf hG ha hcov hc hb h1 h2 h3 h4 hN hN' fuel hfuel
    exact ⟨f, b', g2, g3, g1.prob_pos hN0⟩

/-! ### A re-split that is never proposed -/

/-- the path 0 - 1 - 2 -/
def supGraph : Graph (Fin 3) := ⟨Finset.univ, {(0, 1), (1, 2)}⟩

/-- node 0 has two inhabitants, the others one -/
def supPop (v : Fin 3) : ℚ := if v = 0 then 2 else 1

/-- district 0 is the large one -/
def supLarge : Assignment (Fin 3) (Fin 2) := ⟨⟨[(0, {1, 2}), (1, {0})]⟩, ⟨[(0, 1), (1, 0), (2, 0)]⟩⟩

/-- district 0 is the single node -/
def supSmall : Assignment (Fin 3) (Fin 2) := ⟨⟨[(0, {0}), (1, {1, 2})]⟩, ⟨[(0, 0), (1, 1), (2, 1)]⟩⟩

theorem supGraph_wf : supGraph.WF := by
  constructor <;> decide

theorem supLarge_coherent : supLarge.Coherent := ⟨by unfold Dict.WF; decide, by unfold Dict.WF; decide, by decide, by decide⟩

theorem supSmall_coherent : supSmall.Coherent := ⟨by unfold Dict.WF; decide, by unfold Dict.WF; decide, by decide, by decide⟩

theorem supLarge_covers : supLarge.Covers supGraph.nodes := by unfold Assignment.Covers; decide

theorem supSmall_covers : supSmall.Covers supGraph.nodes := by unfold Assignment.Covers; decide

theorem sup_connected : ConnectedOn supGraph {0} ∧ ConnectedOn supGraph {1, 2} := by
  constructor
  · refine connectedOn_of_root (r := 0) (by decide) fun v hv => ?_
    rw [Finset.mem_singleton.1 hv]
    exact .refl
  · refine connectedOn_of_root (r := 1) (by decide) fun v hv => ?_
    simp only [Finset.mem_insert, Finset.mem_singleton] at hv
    rcases hv with rfl | rfl
    · exact .refl
    · exact .single ⟨by decide, by decide, by decide⟩

theorem supLarge_contiguous : ContiguousPlan supGraph supLarge := by
  intro p s hs
  have : s = {0} ∨ s = {1, 2} := by
    revert hs; revert s; revert p
    decide
  rcases this with rfl | rfl
  · exact sup_connected.1
  · exact sup_connected.2

theorem supSmall_contiguous : ContiguousPlan supGraph supSmall := by
  intro p s hs
  have : s = {0} ∨ s = {1, 2} := by
    revert hs; revert s; revert p
    decide
  rcases this with rfl | rfl
  · exact sup_connected.1
  · exact sup_connected.2

theorem sup_pops : ∑ v ∈ ({0} : Finset (Fin 3)), supPop v = 2 ∧ ∑ v ∈ ({1, 2} : Finset (Fin 3)), supPop v = 2 := by
  decide +kernel

theorem sup_grow : Recombined supGraph supPop 2 0 0 1 supSmall supLarge where
  ne := by decide
  joined := ⟨0, 1, by decide, by decide, by decide⟩
  inside := by decide
  outside := by decide
  keys := rfl
  others := by decide
  new := by
    rintro x (rfl | rfl)
    · exact ⟨{1, 2}, rfl, by decide, sup_connected.2, by rw [sup_pops.2]; norm_num, by rw [sup_pops.2]; norm_num⟩
    · exact ⟨{0}, rfl, by decide, sup_connected.1, by rw [sup_pops.1]; norm_num, by rw [sup_pops.1]; norm_num⟩

theorem sup_shrink : Recombined supGraph supPop 2 0 0 1 supLarge supSmall where
  ne := by decide
  joined := ⟨1, 0, by decide, by decide, by decide⟩
  inside := by decide
  outside := by decide
  keys := rfl
  others := by decide
  new := by
    rintro x (rfl | rfl)
    · exact ⟨{0}, rfl, by decide, sup_connected.1, by rw [sup_pops.1]; norm_num, by rw [sup_pops.1]; norm_num⟩
    · exact ⟨{1, 2}, rfl, by decide, sup_connected.2, by rw [sup_pops.2]; norm_num, by rw [sup_pops.2]; norm_num⟩

/-- **C80** is false without the bound: the re-split of `supLarge` into `supSmall` is balanced and contiguous, and no generator makes `recom`
propose it, because the root drawn by `find_balanced_edge_cuts_memoization` has two neighbours and is in the district with the smaller label
(gerrychain/tree.py:377, 411-423, 934-949). -/
theorem C80_violation : Recombined supGraph supPop 2 0 0 1 supLarge supSmall ∧
    ∀ (S : Type) (R : Rand S), R.Valid → ∀ (nodeRepeats : ℕ) (maxAttempts : Option ℕ) (allow : Bool) (bipFuel fuel : ℕ) (w w' : S)
      (f : Dict (Fin 3) (Fin 2)) (b : Assignment (Fin 3) (Fin 2)),
      recomLoop R (bipMethod R (randomSpanningTree R (fun _ _ => (none : Option ℕ)) none) nodeRepeats maxAttempts (fun _ _ => (none : Option ℕ)) none
        allow bipFuel supPop) supGraph supLarge (cutsOf supGraph supLarge.mapping) supPop 2 0 fuel ∅ w = (.ok f, w') →
      supLarge.flip f = .ok b → ¬ SamePlan b supSmall := by
  refine ⟨sup_shrink, ?_⟩
  intro S R hR nodeRepeats maxAttempts allow bipFuel fuel w w' f b h hb hs
  obtain ⟨p, q, A, h1, h2, h3, h4⟩ := C80_sound hR (spanOk_random hR _ none) _ none nodeRepeats maxAttempts allow bipFuel supGraph_wf supLarge_coherent
    supLarge_covers supLarge_contiguous h hb
  have hfwf : f.WF := by
    obtain ⟨e, he, pq, w1, k1, k2⟩ := recomLoop_ok hR h
    unfold recomPair at k2
    obtain ⟨u, w2, k3, k4⟩ := M.bind_eq_ok k2
    exact epsilon_wf k4
  have hbc := (flip_ok supLarge_coherent hfwf hb).coherent
  have hp : p = 0 := by omega
  subst hp
  have : A ⊆ {0} := by
    intro v hv
    rw [hbc.agree _ _ h3, hs v] at hv
    revert hv; revert v
    decide
  have := Finset.card_le_card this
  simp at this
  omega

/-- the hypotheses of `C80_recom_support_partial` hold for the other direction, and `recom` can return it -/
example : supSmall.Coherent ∧ supSmall.Covers supGraph.nodes ∧ ContiguousPlan supGraph supSmall ∧ supLarge.Coherent ∧
    supLarge.parts.keys = supSmall.parts.keys ∧ supGraph.nodes.card ≤ 4 ∧ (cutsOf supGraph supSmall.mapping).card ≤ 4 ∧
    ∃ f b', Can 4 (recomLoop (uniRand 4) (bipMethod (uniRand 4) (randomSpanningTree (uniRand 4) (fun _ _ => (none : Option ℕ)) none) 1 none
      (fun _ _ => (none : Option ℕ)) none false 1 supPop) supGraph supSmall (cutsOf supGraph supSmall.mapping) supPop 2 0 1 ∅) f ∧
      supSmall.flip f = .ok b' ∧ SamePlan b' supLarge :=
  ⟨supSmall_coherent, supSmall_covers, supSmall_contiguous, supLarge_coherent, rfl, by decide, by decide +kernel,
    C80_complete _ 1 none (by simp) false 1 one_pos supGraph_wf supSmall_coherent supSmall_covers supSmall_contiguous supLarge_coherent
      (by decide) sup_grow rfl (by decide) (by decide) (by decide +kernel) 1 one_pos⟩

end GC

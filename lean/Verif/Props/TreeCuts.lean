import Verif.Lemmas.TreeMemo
import Verif.Lemmas.Contiguity

/-!
# Balanced edges of spanning trees (C31, C32, C33)
-/

set_option linter.unusedSectionVars false
set_option autoImplicit false

namespace GC

variable {V : Type} [LinearOrder V] {S : Type}

/-- `IsTree` is Mathlib's notion: the graph has no self loops and its simple graph on the nodes is a tree. -/
theorem isTree_iff_mathlib {T : Graph V} (hwf : T.WF) :
    IsTree T ↔ (∀ e ∈ T.edges, e.1 ≠ e.2) ∧ (T.toSimple.induce (T.nodes : Set V)).IsTree := by
  have hcard : (∀ e ∈ T.edges, e.1 ≠ e.2) →
      Nat.card (T.toSimple.induce (T.nodes : Set V)).edgeSet = T.edges.card := by
    intro hl
    let f : {e // e ∈ T.edges} → (T.toSimple.induce (T.nodes : Set V)).edgeSet := fun e =>
      ⟨s((⟨e.1.1, hwf.fst_mem _ e.2⟩ : (T.nodes : Set V)), ⟨e.1.2, hwf.snd_mem _ e.2⟩),
        ⟨hl _ e.2, Or.inl e.2⟩⟩
    have hf : Function.Bijective f := by
      constructor
      · rintro ⟨⟨a, b⟩, he⟩ ⟨⟨c, d⟩, he'⟩ hab
        have := congrArg Subtype.val hab
        simp only [f, Sym2.eq_iff, Subtype.mk.injEq] at this
        rcases this with ⟨h1, h2⟩ | ⟨h1, h2⟩
        · subst h1 h2; rfl
        · subst h1 h2
          exact absurd he' (hwf.asymm _ he (hl _ he))
      · rintro ⟨e, he⟩
        induction e using Sym2.ind with
        | _ x y =>
          obtain ⟨x, hx⟩ := x
          obtain ⟨y, hy⟩ := y
          rcases he.2 with h1 | h1
          · exact ⟨⟨(x, y), h1⟩, rfl⟩
          · refine ⟨⟨(y, x), h1⟩, ?_⟩
            apply Subtype.ext
            exact Sym2.eq_swap
    rw [← Nat.card_congr (Equiv.ofBijective f hf), Nat.card_eq_fintype_card, Fintype.card_coe]
  have hn : Nat.card ((T.nodes : Set V) : Type) = T.nodes.card := by
    rw [Nat.card_eq_fintype_card]; simp
  constructor
  · intro h
    have hl : ∀ e ∈ T.edges, e.1 ≠ e.2 := by
      intro e he heq
      obtain ⟨r, hr⟩ := h.conn.1
      obtain ⟨par, rank, hRt, _⟩ := bfs_rooted h hr
      have key : e.1 ≠ r ∧ e.2 = par e.1 := by
        rcases hRt.edge e.1 e.2 (Or.inl he) with h1 | h1
        · exact h1
        · rw [heq]; exact ⟨h1.1, heq ▸ h1.2⟩
      have := hRt.rank_lt e.1 (hwf.fst_mem _ he) key.1
      rw [← key.2, heq] at this
      omega
    refine ⟨hl, ?_⟩
    rw [SimpleGraph.isTree_iff_connected_and_card, hcard hl, hn]
    exact ⟨(connectedOn_iff_mathlib _ _).1 h.conn, h.card⟩
  · rintro ⟨hl, h⟩
    rw [SimpleGraph.isTree_iff_connected_and_card, hcard hl, hn] at h
    exact ⟨hwf, (connectedOn_iff_mathlib _ _).2 h.1, h.2⟩

/-- Removing the edge between `u` and `v` leaves two sides whose populations are both within `eps` of `ideal`. -/
def BalancedEdge (T : Graph V) (pop : V → ℚ) (ideal eps : ℚ) (u v : V) : Prop :=
  T.Adj u v ∧ ∃ A B, IsSide T u v A ∧ IsSide T v u B ∧ Near ideal eps (popOf pop A) ∧ Near ideal eps (popOf pop B)

theorem init_totPop (nodes : Finset V) (T : Graph V) (wt : V → V → Option ℚ) (pop : V → ℚ) (ideal eps : ℚ) :
    (PopGraph.init nodes T wt pop ideal eps).totPop = popOf pop nodes := by
  show ((iter nodes).map pop).sum = _
  unfold popOf
  rw [← List.sum_toFinset _ (nodup_iter nodes), toFinset_iter]

/-- The sides of an edge partition the nodes of a tree. -/
theorem side_compl {T : Graph V} (hT : IsTree T) {u v : V} (ha : T.Adj u v) :
    ∃ A, IsSide T u v A ∧ IsSide T v u (T.nodes \ A) := by
  obtain ⟨par, rank, hRt, _⟩ := bfs_rooted hT (hT.wf.mem_of_adj ha).1
  rcases hRt.edge _ _ ha with ⟨h1, rfl⟩ | ⟨h1, rfl⟩
  · exact absurd rfl h1
  · have hv := (hT.wf.mem_of_adj ha).2
    refine ⟨T.nodes \ sub T (par v) par v, isSide_compl hRt hv h1, ?_⟩
    rw [Finset.sdiff_sdiff_eq_self sub_subset]
    exact isSide_sub hRt hv h1

section
variable {T : Graph V} {root : V} {par : V → V} {rank : V → ℕ}

theorem CutsFor.edges_nodup (hRt : Rooted T root par rank) {bal : V → Prop} {side : V → Finset V} {cuts : List (Cut V)}
    (h : CutsFor par (T.nodes.erase root) bal side cuts) : (cuts.map (fun c => sortPair c.edge)).Nodup := by
  have h1 := h.nodup
  rw [List.Nodup, List.pairwise_map] at h1 ⊢
  refine h1.imp_of_mem ?_
  intro a b ha hb hne heq
  obtain ⟨a1, _, a3, _⟩ := h.sound a ha
  obtain ⟨b1, _, b3, _⟩ := h.sound b hb
  rw [Finset.mem_erase] at a1 b1
  have ea : a.edge = (a.edge.1, par a.edge.1) := Prod.ext rfl a3
  have eb : b.edge = (b.edge.1, par b.edge.1) := Prod.ext rfl b3
  have la := hRt.rank_lt _ a1.2 a1.1
  have lb := hRt.rank_lt _ b1.2 b1.1
  have key : a.edge = b.edge ∨ a.edge = (b.edge.2, b.edge.1) := by
    rcases sortPair_eq_or a.edge with h1 | h1 <;> rcases sortPair_eq_or b.edge with h2 | h2 <;> rw [h1, h2] at heq
    · exact Or.inl heq
    · exact Or.inr heq
    · right
      have e1 := congrArg Prod.fst heq
      have e2 := congrArg Prod.snd heq
      exact Prod.ext e2 e1
    · left
      have e1 := congrArg Prod.fst heq
      have e2 := congrArg Prod.snd heq
      exact Prod.ext e2 e1
  rcases key with e | e
  · exact hne (congrArg Prod.fst e)
  · have e1 := congrArg Prod.fst e
    have e2 := congrArg Prod.snd e
    simp only at e1 e2
    rw [b3] at e1
    rw [a3] at e2
    rw [e2] at la
    rw [← e1] at lb
    omega

theorem CutsFor.adj (hRt : Rooted T root par rank) {bal : V → Prop} {side : V → Finset V} {cuts : List (Cut V)}
    (h : CutsFor par (T.nodes.erase root) bal side cuts) {c : Cut V} (hc : c ∈ cuts) : T.Adj c.edge.1 c.edge.2 := by
  obtain ⟨a1, _, a3, _⟩ := h.sound c hc
  rw [Finset.mem_erase] at a1
  rw [a3]
  exact hRt.adj _ a1.2 a1.1

theorem CutsFor.find (hRt : Rooted T root par rank) {bal : V → Prop} {side : V → Finset V} {cuts : List (Cut V)}
    (h : CutsFor par (T.nodes.erase root) bal side cuts) {u v : V} (ha : T.Adj u v)
    (hb : ∀ x y, (x = u ∧ y = v) ∨ (x = v ∧ y = u) → x ≠ root → y = par x → bal x) :
    ∃ c ∈ cuts, c.edge = (u, v) ∨ c.edge = (v, u) := by
  have hm := hRt.wf.mem_of_adj ha
  rcases hRt.edge _ _ ha with ⟨h1, h2⟩ | ⟨h1, h2⟩
  · obtain ⟨c, hc, e⟩ := h.complete u (Finset.mem_erase.2 ⟨h1, hm.1⟩) (hb u v (Or.inl ⟨rfl, rfl⟩) h1 h2)
    refine ⟨c, hc, Or.inl (Prod.ext e ?_)⟩
    rw [(h.sound c hc).2.2.1, e]; exact h2.symm
  · obtain ⟨c, hc, e⟩ := h.complete v (Finset.mem_erase.2 ⟨h1, hm.2⟩) (hb v u (Or.inr ⟨rfl, rfl⟩) h1 h2)
    refine ⟨c, hc, Or.inr (Prod.ext e ?_)⟩
    rw [(h.sound c hc).2.2.1, e]; exact h2.symm

/-- the balance of an edge in terms of the subtree below it -/
theorem balancedEdge_iff (hRt : Rooted T root par rank) {pop : V → ℚ} {ideal eps : ℚ} {x : V} (hx : x ∈ T.nodes)
    (hr : x ≠ root) : BalancedEdge T pop ideal eps x (par x) ↔
      Near ideal eps (popOf pop (sub T root par x)) ∧
      Near ideal eps (popOf pop T.nodes - popOf pop (sub T root par x)) := by
  rw [← popOf_compl]
  constructor
  · rintro ⟨_, A, B, h1, h2, h3, h4⟩
    rw [h1.unique (isSide_sub hRt hx hr)] at h3
    rw [h2.unique (isSide_compl hRt hx hr)] at h4
    exact ⟨h3, h4⟩
  · rintro ⟨h1, h2⟩
    exact ⟨hRt.adj x hx hr, _, _, isSide_sub hRt hx hr, isSide_compl hRt hx hr, h1, h2⟩

end

theorem BalancedEdge.symm {T : Graph V} {pop : V → ℚ} {ideal eps : ℚ} {u v : V} (h : BalancedEdge T pop ideal eps u v) :
    BalancedEdge T pop ideal eps v u := by
  obtain ⟨ha, A, B, h1, h2, h3, h4⟩ := h
  exact ⟨ha.symm, B, A, h2, h1, h4, h3⟩

/-- A tree with at least three nodes has a node of degree at least two. -/
theorem exists_inner_node {T : Graph V} (hT : IsTree T) (h3 : 3 ≤ T.nodes.card) :
    (iter T.nodes).filter (fun x => T.degree x > 1) ≠ [] := by
  intro hnil
  rw [List.filter_eq_nil_iff] at hnil
  have hle : ∀ x ∈ T.nodes, T.degree x ≤ 1 := by
    intro x hx
    have := hnil x (by simpa using hx)
    simpa using this
  obtain ⟨r, hr⟩ := Finset.card_pos.1 (show 0 < T.nodes.card by omega)
  obtain ⟨par, rank, hRt, _⟩ := bfs_rooted hT hr
  -- the root has at most one child, a child has none
  have hk : ∀ v ∈ T.nodes, v ≠ r → kids T r par v = ∅ := by
    intro v hv hvr
    have := hle v hv
    rw [degree_eq hRt hv, if_neg hvr] at this
    exact Finset.card_eq_zero.1 (by omega)
  have h1 : ∀ v ∈ T.nodes, v ≠ r → (sub T r par v).card = 1 := by
    intro v hv hvr
    rw [card_sub hRt hv, hk v hv hvr]; simp
  have h2 := card_sub hRt hr
  rw [sub_root hRt] at h2
  have h4 : ∑ c ∈ kids T r par r, (sub T r par c).card = (kids T r par r).card := by
    rw [Finset.card_eq_sum_ones]
    apply Finset.sum_congr rfl
    intro c hc
    simp only [kids, Finset.mem_filter] at hc
    exact h1 c hc.1 hc.2.1
  have h5 := hle r hr
  rw [degree_eq hRt hr, if_pos rfl] at h5
  omega

/-- the root drawn by either algorithm, with the rooted tree of the search from it -/
theorem draw_root {T : Graph V} (hT : IsTree T) (R : Rand S) (hR : R.Valid) (w : S)
    (hne : (iter T.nodes).filter (fun x => T.degree x > 1) ≠ []) :
    ∃ root w' par rank, R.choice ((iter T.nodes).filter (fun x => T.degree x > 1)) w = (.ok root, w') ∧
      root ∈ T.nodes ∧ T.degree root > 1 ∧ Rooted T root par rank ∧
      (∀ v ∈ T.nodes, v ≠ root → (predecessors T root).get? v = some (par v)) ∧ SuccOk T root par (successors T root) := by
  obtain ⟨root, hm, w', hc⟩ := hR.choice_mem _ w hne
  simp only [List.mem_filter, mem_iter, decide_eq_true_eq] at hm
  obtain ⟨par, rank, h1, h2, h3, h4, h5⟩ := bfs_rooted hT hm.1
  exact ⟨root, w', par, rank, hc, hm.1, hm.2, h1, h2, h3, h4, h5⟩

/-- the contraction algorithm in terms of the rooted tree -/
theorem contraction_cutsFor {T : Graph V} (hT : IsTree T) (h3 : 3 ≤ T.nodes.card) (R : Rand S) (hR : R.Valid)
    (wt : V → V → Option ℚ) (pop : V → ℚ) (ideal eps : ℚ) (oneSided : Bool) {fuel : ℕ} (hf : T.nodes.card ≤ fuel) (w : S) :
    ∃ cuts w' root par rank,
      cutsContraction R fuel (PopGraph.init T.nodes T wt pop ideal eps) oneSided w = (.ok cuts, w') ∧
      T.degree root > 1 ∧ Rooted T root par rank ∧
      CutsFor par (T.nodes.erase root)
        (fun x => (PopGraph.init T.nodes T wt pop ideal eps).hasIdeal oneSided (popOf pop (sub T root par x)) = true)
        (sub T root par) cuts := by
  obtain ⟨root, w1, par, rank, hc, hrm, hdr, hRt, hpred, _⟩ := draw_root hT R hR w (exists_inner_node hT h3)
  obtain ⟨cuts, w2, h1, h2⟩ := contractionLoop_spec hRt R hR (PopGraph.init T.nodes T wt pop ideal eps) oneSided
    (predecessors T root) hpred fuel ∅ _ w1 (contrInv_init hRt hdr pop _) (by simp; omega) (by omega)
  refine ⟨cuts, w2, root, par, rank, ?_, hdr, hRt, h2⟩
  unfold cutsContraction
  exact (M.bind_ok hc).trans h1

/-- **C31** On every tree with at least three nodes, for every root drawn, the contraction algorithm returns exactly one
cut for every edge whose two sides are both within `eps` of the target, and no other cut; the reported subset is the side of
the first end of the reported edge. -/
theorem C31_contraction {T : Graph V} (hT : IsTree T) (h3 : 3 ≤ T.nodes.card) (R : Rand S) (hR : R.Valid)
    (wt : V → V → Option ℚ) (pop : V → ℚ) (ideal eps : ℚ) {fuel : ℕ} (hf : T.nodes.card ≤ fuel) (w : S) :
    ∃ cuts w', cutsContraction R fuel (PopGraph.init T.nodes T wt pop ideal eps) false w = (.ok cuts, w') ∧
      (cuts.map (fun c => sortPair c.edge)).Nodup ∧
      (∀ c ∈ cuts, BalancedEdge T pop ideal eps c.edge.1 c.edge.2 ∧ IsSide T c.edge.1 c.edge.2 c.subset) ∧
      (∀ u v, BalancedEdge T pop ideal eps u v → ∃ c ∈ cuts, c.edge = (u, v) ∨ c.edge = (v, u)) := by
  obtain ⟨cuts, w', root, par, rank, h1, _, hRt, hcf⟩ :=
    contraction_cutsFor hT h3 R hR wt pop ideal eps false hf w
  have hbal : ∀ x, x ∈ T.nodes → x ≠ root →
      ((PopGraph.init T.nodes T wt pop ideal eps).hasIdeal false (popOf pop (sub T root par x)) = true ↔
        BalancedEdge T pop ideal eps x (par x)) := by
    intro x hx hr
    rw [balancedEdge_iff hRt hx hr]
    unfold PopGraph.hasIdeal
    rw [init_totPop]
    simp only [Bool.false_eq_true, if_false, Bool.and_eq_true, decide_eq_true_eq]
    rfl
  refine ⟨cuts, w', h1, hcf.edges_nodup hRt, ?_, ?_⟩
  · intro c hc
    obtain ⟨a1, a2, a3, a4⟩ := hcf.sound c hc
    rw [Finset.mem_erase] at a1
    rw [a3, a4]
    exact ⟨(hbal _ a1.2 a1.1).1 a2, isSide_sub hRt a1.2 a1.1⟩
  · intro u v huv
    have hm := hT.wf.mem_of_adj huv.1
    refine hcf.find hRt huv.1 ?_
    rintro x y (⟨rfl, rfl⟩ | ⟨rfl, rfl⟩) hx rfl
    · exact (hbal _ hm.1 hx).2 huv
    · exact (hbal _ hm.2 hx).2 huv.symm

/-- **C31** (one-sided cuts) Only the side away from the root is tested, strictly: there is one cut for every edge whose side
away from the root is strictly within `eps`, and no other. -/
theorem C31_contraction_one_sided {T : Graph V} (hT : IsTree T) (h3 : 3 ≤ T.nodes.card) (R : Rand S) (hR : R.Valid)
    (wt : V → V → Option ℚ) (pop : V → ℚ) (ideal eps : ℚ) {fuel : ℕ} (hf : T.nodes.card ≤ fuel) (w : S) :
    ∃ cuts w' root, cutsContraction R fuel (PopGraph.init T.nodes T wt pop ideal eps) true w = (.ok cuts, w') ∧
      T.degree root > 1 ∧
      (cuts.map (fun c => sortPair c.edge)).Nodup ∧
      (∀ c ∈ cuts, T.Adj c.edge.1 c.edge.2 ∧ IsSide T c.edge.1 c.edge.2 c.subset ∧ root ∉ c.subset ∧
        NearStrict ideal eps (popOf pop c.subset)) ∧
      (∀ u v A, T.Adj u v → IsSide T u v A → root ∉ A → NearStrict ideal eps (popOf pop A) →
        ∃ c ∈ cuts, c.edge = (u, v) ∧ c.subset = A) := by
  obtain ⟨cuts, w', root, par, rank, h1, hdr, hRt, hcf⟩ :=
    contraction_cutsFor hT h3 R hR wt pop ideal eps true hf w
  have hbal : ∀ x, ((PopGraph.init T.nodes T wt pop ideal eps).hasIdeal true (popOf pop (sub T root par x)) = true ↔
        NearStrict ideal eps (popOf pop (sub T root par x))) := by
    intro x
    unfold PopGraph.hasIdeal
    simp only [if_true, decide_eq_true_eq]
    rfl
  have hrs : ∀ x ∈ T.nodes, x ≠ root → root ∉ sub T root par x := by
    intro x hx hr hm
    rcases Relation.ReflTransGen.cases_head (mem_sub.1 hm).2 with e | ⟨c, ⟨_, h2, _⟩, _⟩
    · exact hr e.symm
    · exact h2 rfl
  refine ⟨cuts, w', root, h1, hdr, hcf.edges_nodup hRt, ?_, ?_⟩
  · intro c hc
    obtain ⟨a1, a2, a3, a4⟩ := hcf.sound c hc
    rw [Finset.mem_erase] at a1
    refine ⟨hcf.adj hRt hc, ?_, ?_, ?_⟩
    · rw [a3, a4]; exact isSide_sub hRt a1.2 a1.1
    · rw [a4]; exact hrs _ a1.2 a1.1
    · rw [a4]; exact (hbal _).1 a2
  · intro u v A ha hA hrA hnear
    have hm := hT.wf.mem_of_adj ha
    rcases hRt.edge _ _ ha with ⟨h2, rfl⟩ | ⟨h2, rfl⟩
    · have e := hA.unique (isSide_sub hRt hm.1 h2)
      subst e
      obtain ⟨c, hc, e⟩ := hcf.complete u (Finset.mem_erase.2 ⟨h2, hm.1⟩) ((hbal u).2 hnear)
      obtain ⟨_, _, a3, a4⟩ := hcf.sound c hc
      rw [e] at a3 a4
      exact ⟨c, hc, Prod.ext e a3, a4⟩
    · have e := hA.unique (isSide_compl hRt hm.2 h2)
      subst e
      exact absurd (Finset.mem_sdiff.2 ⟨hRt.root_mem, hrs v hm.2 h2⟩) hrA

/-- the memoization algorithm in terms of the rooted tree -/
theorem memoization_cutsFor {T : Graph V} (hT : IsTree T) (h3 : 3 ≤ T.nodes.card) (R : Rand S) (hR : R.Valid)
    (wt : V → V → Option ℚ) (pop : V → ℚ) (ideal eps : ℚ) (oneSided : Bool) {fuel : ℕ} (hf : 2 * T.nodes.card ≤ fuel)
    (w : S) :
    ∃ cuts w' root par rank,
      cutsMemoization R fuel (PopGraph.init T.nodes T wt pop ideal eps) oneSided w = (.ok cuts, w') ∧
      Rooted T root par rank ∧
      CutsFor par (T.nodes.erase root) (memoBal T root par (PopGraph.init T.nodes T wt pop ideal eps) oneSided)
        (memoSide T root par (PopGraph.init T.nodes T wt pop ideal eps) oneSided) cuts := by
  obtain ⟨root, w1, par, rank, hc, hrm, hdr, hRt, hpred, hs⟩ := draw_root hT R hR w (exists_inner_node hT h3)
  obtain ⟨pops, p1, p2, p3, p4⟩ := calcPops_spec hRt hs pop hf
  have hkey : (pops.entries.map (·.1)).toFinset = T.nodes.erase root := by
    ext y; rw [List.mem_toFinset, p3]
  obtain ⟨cuts, w2, h1, h2⟩ := memoLoop_spec hRt R hR (PopGraph.init T.nodes T wt pop ideal eps)
    (pred := predecessors T root) hpred hs (fuel := fuel) (by omega) oneSided pops.entries ∅ [] w1 p2 (by
      intro e he
      have := (p3 e.1).1 (List.mem_map.2 ⟨e, he, rfl⟩)
      rw [Finset.mem_erase] at this
      exact ⟨by simp, this.2, this.1, p4 e he⟩) ⟨by simp, by simp, by simp⟩
  rw [Finset.empty_union, hkey] at h2
  refine ⟨cuts, w2, root, par, rank, ?_, hRt, h2⟩
  unfold cutsMemoization
  refine (M.bind_ok hc).trans ?_
  show ((M.lift (calcPops fuel (successors T root) root pop) : M S _) >>= _) w1 = _
  rw [p1]
  exact h1

theorem near_comm (ideal eps x : ℚ) : |x - ideal| ≤ ideal * eps ↔ Near ideal eps x := by
  unfold Near; rw [mul_comm]

/-- **C32** (two-sided cuts) On every tree with at least three nodes, for every root drawn, the memoization algorithm returns
exactly one cut for every edge whose two sides are both within `eps` of the target, and no other; the reported subset is the
side of the second end of the reported edge. -/
theorem C32_memoization {T : Graph V} (hT : IsTree T) (h3 : 3 ≤ T.nodes.card) (R : Rand S) (hR : R.Valid)
    (wt : V → V → Option ℚ) (pop : V → ℚ) (ideal eps : ℚ) {fuel : ℕ} (hf : 2 * T.nodes.card ≤ fuel) (w : S) :
    ∃ cuts w', cutsMemoization R fuel (PopGraph.init T.nodes T wt pop ideal eps) false w = (.ok cuts, w') ∧
      (cuts.map (fun c => sortPair c.edge)).Nodup ∧
      (∀ c ∈ cuts, BalancedEdge T pop ideal eps c.edge.1 c.edge.2 ∧ IsSide T c.edge.2 c.edge.1 c.subset) ∧
      (∀ u v, BalancedEdge T pop ideal eps u v → ∃ c ∈ cuts, c.edge = (u, v) ∨ c.edge = (v, u)) := by
  obtain ⟨cuts, w', root, par, rank, h1, hRt, hcf⟩ := memoization_cutsFor hT h3 R hR wt pop ideal eps false hf w
  have hbal : ∀ x, x ∈ T.nodes → x ≠ root →
      (memoBal T root par (PopGraph.init T.nodes T wt pop ideal eps) false x ↔ BalancedEdge T pop ideal eps x (par x)) := by
    intro x hx hr
    rw [balancedEdge_iff hRt hx hr, ← near_comm, ← near_comm]
    unfold memoBal
    rw [init_totPop]
    simp only [Bool.false_eq_true, if_false]
    rfl
  refine ⟨cuts, w', h1, hcf.edges_nodup hRt, ?_, ?_⟩
  · intro c hc
    obtain ⟨a1, a2, a3, a4⟩ := hcf.sound c hc
    rw [Finset.mem_erase] at a1
    rw [a3, a4]
    refine ⟨(hbal _ a1.2 a1.1).1 a2, ?_⟩
    unfold memoSide
    rw [if_neg (by simp)]
    exact isSide_compl hRt a1.2 a1.1
  · intro u v huv
    have hm := hT.wf.mem_of_adj huv.1
    refine hcf.find hRt huv.1 ?_
    rintro x y (⟨rfl, rfl⟩ | ⟨rfl, rfl⟩) hx rfl
    · exact (hbal _ hm.1 hx).2 huv
    · exact (hbal _ hm.2 hx).2 huv.symm

/-- **C32** (one-sided cuts) The memoization algorithm returns exactly one cut for every edge with at least one side within
`eps` of the target, and no other; the reported subset is such a side. -/
theorem C32_memoization_one_sided {T : Graph V} (hT : IsTree T) (h3 : 3 ≤ T.nodes.card) (R : Rand S) (hR : R.Valid)
    (wt : V → V → Option ℚ) (pop : V → ℚ) (ideal eps : ℚ) {fuel : ℕ} (hf : 2 * T.nodes.card ≤ fuel) (w : S) :
    ∃ cuts w', cutsMemoization R fuel (PopGraph.init T.nodes T wt pop ideal eps) true w = (.ok cuts, w') ∧
      (cuts.map (fun c => sortPair c.edge)).Nodup ∧
      (∀ c ∈ cuts, T.Adj c.edge.1 c.edge.2 ∧
        (IsSide T c.edge.1 c.edge.2 c.subset ∨ IsSide T c.edge.2 c.edge.1 c.subset) ∧
        Near ideal eps (popOf pop c.subset)) ∧
      (∀ u v A, T.Adj u v → IsSide T u v A → Near ideal eps (popOf pop A) →
        ∃ c ∈ cuts, c.edge = (u, v) ∨ c.edge = (v, u)) := by
  obtain ⟨cuts, w', root, par, rank, h1, hRt, hcf⟩ := memoization_cutsFor hT h3 R hR wt pop ideal eps true hf w
  have hbal : ∀ x, (memoBal T root par (PopGraph.init T.nodes T wt pop ideal eps) true x ↔
      Near ideal eps (popOf pop (sub T root par x)) ∨ Near ideal eps (popOf pop (T.nodes \ sub T root par x))) := by
    intro x
    rw [popOf_compl, ← near_comm, ← near_comm]
    unfold memoBal
    rw [init_totPop]
    simp only [if_true]
    rfl
  refine ⟨cuts, w', h1, hcf.edges_nodup hRt, ?_, ?_⟩
  · intro c hc
    obtain ⟨a1, a2, a3, a4⟩ := hcf.sound c hc
    rw [Finset.mem_erase] at a1
    refine ⟨hcf.adj hRt hc, ?_⟩
    rw [a3, a4]
    rw [hbal, ← near_comm] at a2
    unfold memoSide
    split
    · rename_i hcond
      exact ⟨Or.inl (isSide_sub hRt a1.2 a1.1), (near_comm ..).1 hcond.2⟩
    · rename_i hcond
      exact ⟨Or.inr (isSide_compl hRt a1.2 a1.1), a2.resolve_left (fun h' => hcond ⟨rfl, h'⟩)⟩
  · intro u v A ha hA hnear
    have hm := hT.wf.mem_of_adj ha
    refine hcf.find hRt ha ?_
    rintro x y (⟨rfl, rfl⟩ | ⟨rfl, rfl⟩) hx rfl
    · rw [hA.unique (isSide_sub hRt hm.1 hx)] at hnear
      exact (hbal _).2 (Or.inl hnear)
    · rw [hA.unique (isSide_compl hRt hm.2 hx)] at hnear
      exact (hbal _).2 (Or.inr hnear)

/-- **C33** The two algorithms find cuts on the same edges, whatever roots they draw. -/
theorem C33_same_edges {T : Graph V} (hT : IsTree T) (h3 : 3 ≤ T.nodes.card) {S' : Type} (R : Rand S) (hR : R.Valid)
    (R' : Rand S') (hR' : R'.Valid) (wt wt' : V → V → Option ℚ) (pop : V → ℚ) (ideal eps : ℚ) {fuel fuel' : ℕ}
    (hf : T.nodes.card ≤ fuel) (hf' : 2 * T.nodes.card ≤ fuel') (w : S) (w' : S') :
    ∃ c1 w1 c2 w2, cutsContraction R fuel (PopGraph.init T.nodes T wt pop ideal eps) false w = (.ok c1, w1) ∧
      cutsMemoization R' fuel' (PopGraph.init T.nodes T wt' pop ideal eps) false w' = (.ok c2, w2) ∧
      (c1.map (fun c => sortPair c.edge)).Perm (c2.map (fun c => sortPair c.edge)) := by
  obtain ⟨c1, w1, a1, a2, a3, a4⟩ := C31_contraction hT h3 R hR wt pop ideal eps hf w
  obtain ⟨c2, w2, b1, b2, b3, b4⟩ := C32_memoization hT h3 R' hR' wt' pop ideal eps hf' w'
  refine ⟨c1, w1, c2, w2, a1, b1, (List.perm_ext_iff_of_nodup a2 b2).2 ?_⟩
  have key : ∀ (l m : List (Cut V)), (∀ c ∈ l, BalancedEdge T pop ideal eps c.edge.1 c.edge.2) →
      (∀ u v, BalancedEdge T pop ideal eps u v → ∃ c ∈ m, c.edge = (u, v) ∨ c.edge = (v, u)) →
      ∀ e ∈ l.map (fun c => sortPair c.edge), e ∈ m.map (fun c => sortPair c.edge) := by
    intro l m h1 h2 e he
    obtain ⟨c, hc, rfl⟩ := List.mem_map.1 he
    obtain ⟨d, hd, h4⟩ := h2 _ _ (h1 c hc)
    refine List.mem_map.2 ⟨d, hd, ?_⟩
    rcases h4 with h4 | h4
    · rw [h4]
    · rw [h4, sortPair_comm]
  intro e
  exact ⟨key c1 c2 (fun c hc => (a3 c hc).1) b4 e, key c2 c1 (fun c hc => (b3 c hc).1) a4 e⟩

/-- On a tree with one or two nodes both algorithms raise `IndexError`: there is no node of degree greater than one to draw
as a root, although the only edge may well be balanced. -/
theorem C31_two_nodes {T : Graph V} (hT : IsTree T) (h2 : T.nodes.card ≤ 2) (R : Rand S) (hR : R.Valid)
    (wt : V → V → Option ℚ) (pop : V → ℚ) (ideal eps : ℚ) (oneSided : Bool) (fuel : ℕ) (w : S) :
    (∃ w', cutsContraction R fuel (PopGraph.init T.nodes T wt pop ideal eps) oneSided w = (.error .indexError, w')) ∧
    (∃ w', cutsMemoization R fuel (PopGraph.init T.nodes T wt pop ideal eps) oneSided w = (.error .indexError, w')) := by
  have hnil : (iter T.nodes).filter (fun x => T.degree x > 1) = [] := by
    rw [List.filter_eq_nil_iff]
    intro x hx
    rw [mem_iter] at hx
    obtain ⟨par, rank, hRt, _⟩ := bfs_rooted hT hx
    have : T.degree x ≤ 1 := by
      rw [degree_eq hRt hx, if_pos rfl]
      have hk : kids T x par x ⊆ T.nodes.erase x := by
        intro c hc
        simp only [kids, Finset.mem_filter] at hc
        exact Finset.mem_erase.2 ⟨hc.2.1, hc.1⟩
      have := Finset.card_le_card hk
      rw [Finset.card_erase_of_mem hx] at this
      omega
    simpa using this
  obtain ⟨w', hc⟩ := hR.choice_nil (α := V) w
  constructor
  · refine ⟨w', ?_⟩
    unfold cutsContraction
    refine M.bind_error ?_
    show R.choice ((iter T.nodes).filter (fun x => T.degree x > 1)) w = _
    rw [hnil]; exact hc
  · refine ⟨w', ?_⟩
    unfold cutsMemoization
    refine M.bind_error ?_
    show R.choice ((iter T.nodes).filter (fun x => T.degree x > 1)) w = _
    rw [hnil]; exact hc

/-! ### Examples -/

/-- a generator that reads a tape of indices; `random` returns 1/2 -/
def tapeRand : Rand (List ℕ) where
  choice := fun l s => match l[s.headD 0 % l.length]? with
    | some x => (.ok x, s.tail)
    | none => (.error .indexError, s.tail)
  random := fun s => (.ok (1 / 2), s)

theorem tapeRand_valid : tapeRand.Valid where
  choice_mem := by
    intro α l s hl
    have hlt : s.headD 0 % l.length < l.length := Nat.mod_lt _ (List.length_pos_iff.2 hl)
    refine ⟨l[s.headD 0 % l.length], List.getElem_mem _, s.tail, ?_⟩
    show (match l[s.headD 0 % l.length]? with | some x => _ | none => _) = _
    rw [List.getElem?_eq_getElem hlt]
  choice_nil := by
    intro α s
    exact ⟨s.tail, by simp [tapeRand]⟩
  random_ok := fun s => ⟨1 / 2, s, rfl, by norm_num, by norm_num⟩

/-- a star with a tail: 0, 1, 2 around 3, and 3-4-5 -/
def exTree : Graph ℕ := ⟨{0, 1, 2, 3, 4, 5}, {(0, 3), (1, 3), (2, 3), (3, 4), (4, 5)}⟩

theorem exTree_isTree : IsTree exTree where
  wf := ⟨by decide, by decide, by decide⟩
  conn := by
    rw [← nxIsConnected_true ⟨by decide, by decide, by decide⟩]
    decide +kernel
  card := by decide

/-- populations 1, 1, 1, 1, 2, 2, target 4: the edge 3-4 is the only balanced one; the hypotheses of C31, C32 and C33 hold
and both algorithms report that edge -/
def exTreePop : ℕ → ℚ := fun v => if v ≤ 3 then 1 else 2

example : IsTree exTree ∧ 3 ≤ exTree.nodes.card ∧ tapeRand.Valid ∧ BalancedEdge exTree exTreePop 4 0 3 4 := by
  refine ⟨exTree_isTree, by decide, tapeRand_valid, ?_⟩
  obtain ⟨cuts, w', h1, _, h3, _⟩ := C31_contraction exTree_isTree (by decide) tapeRand tapeRand_valid (fun _ _ => none)
    exTreePop 4 0 (fuel := 10) (by decide) [0]
  have h2 : ((cutsContraction tapeRand 10 (PopGraph.init exTree.nodes exTree (fun _ _ => none) exTreePop 4 0) false [0]).1.map
      (List.map Cut.edge)) = .ok [(4, 3)] := by decide +kernel
  rw [h1] at h2
  simp only [Except.map] at h2
  injection h2 with h2
  have : ∃ c ∈ cuts, c.edge = (4, 3) := by
    have : ((4, 3) : ℕ × ℕ) ∈ cuts.map Cut.edge := by rw [h2]; simp
    obtain ⟨c, hc, e⟩ := List.mem_map.1 this
    exact ⟨c, hc, e⟩
  obtain ⟨c, hc, e⟩ := this
  have := (h3 c hc).1
  rw [e] at this
  exact this.symm

example : ((cutsMemoization tapeRand 20 (PopGraph.init exTree.nodes exTree (fun _ _ => none) exTreePop 4 0) false [1]).1.map
    (List.map (fun c => (c.edge, c.subset)))) = .ok [((3, 4), {4, 5})] := by decide +kernel

/-- with one-sided cuts and target 2 the root's side can be the balanced one: rooted at 3, the edges 3-4 (no), 4-5 (yes) -/
example : ((cutsMemoization tapeRand 20 (PopGraph.init exTree.nodes exTree (fun _ _ => none) exTreePop 4 0) true [1]).1.map
    (List.map (fun c => (c.edge, c.subset)))) = .ok [((3, 4), {0, 1, 2, 3})] := by decide +kernel

/-- the path with two nodes of C31_two_nodes, whose only edge is balanced -/
example : IsTree (⟨{0, 1}, {(0, 1)}⟩ : Graph ℕ) where
  wf := ⟨by decide, by decide, by decide⟩
  conn := by
    rw [← nxIsConnected_true ⟨by decide, by decide, by decide⟩]
    decide +kernel
  card := by decide

end GC

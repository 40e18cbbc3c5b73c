import Verif.Props.TreeCuts
import Verif.Model.Bipartition

/-!
# Tree bipartitions (C34, C35)
-/

set_option linter.unusedSectionVars false
set_option autoImplicit false

namespace GC

variable {V : Type} [LinearOrder V] {S : Type}

/-! ### Sides are connected -/

theorem side_connected {T : Graph V} (hT : IsTree T) {u v : V} (ha : T.Adj u v) {A : Finset V} (hA : IsSide T u v A) :
    ConnectedOn T A := by
  have hu : u ∈ A := (hA u).2 ⟨(hT.wf.mem_of_adj ha).1, Relation.ReflTransGen.refl⟩
  refine connectedOn_of_root hu ?_
  intro w hw
  have := ((hA w).1 hw).2
  have key : ∀ w, ReachIn (T.cut u v) T.nodes u w → ReachIn T A u w := by
    intro w h
    induction h with
    | refl => exact Relation.ReflTransGen.refl
    | @tail b c hb hs ih =>
      have hbA : b ∈ A := (hA b).2 ⟨hs.2.1, hb⟩
      have hcA : c ∈ A := (hA c).2 ⟨hs.2.2, Relation.ReflTransGen.tail hb hs⟩
      exact Relation.ReflTransGen.tail ih ⟨(Graph.cut_adj.1 hs.1).1, hbA, hcA⟩
  exact key w this

theorem ConnectedOn.mono_edges {T G : Graph V} (h : ∀ u v, T.Adj u v → G.Adj u v) {A : Finset V} (hA : ConnectedOn T A) :
    ConnectedOn G A :=
  ⟨hA.1, fun u hu v hv => Relation.ReflTransGen.mono (fun _ _ h' => ⟨h _ _ h'.1, h'.2⟩) _ _ (hA.2 u hu v hv)⟩

/-- A side of a tree edge and its complement are nonempty and connected. -/
theorem side_bipartition {T G : Graph V} (hT : IsSpanningTree T G) {u v : V} (ha : T.Adj u v) {A : Finset V}
    (hA : IsSide T u v A) : A ⊆ G.nodes ∧ ConnectedOn G A ∧ ConnectedOn G (G.nodes \ A) := by
  obtain ⟨A', h1, h2⟩ := side_compl hT.tree ha
  have e := hA.unique h1
  subst e
  rw [hT.nodes] at h2
  exact ⟨fun w hw => hT.nodes ▸ ((hA w).1 hw).1, (side_connected hT.tree ha hA).mono_edges hT.edges,
    (side_connected hT.tree ha.symm h2).mono_edges hT.edges⟩

/-! ### What the callables must satisfy -/

/-- a spanning tree of `G`; on a graph with a single node any graph without edges is accepted, as `uniform_spanning_tree`
returns the empty graph there -/
def TreeOk (G T : Graph V) : Prop := IsSpanningTree T G ∨ (G.nodes.card ≤ 1 ∧ T.edges = ∅)

/-- a spanning tree function: whatever it returns on a connected graph is a spanning tree -/
def SpanOk (spanFn : Graph V → M S (WTree V)) : Prop :=
  ∀ G w t w', G.WF → ConnectedOn G G.nodes → spanFn G w = (.ok t, w') → TreeOk G t.graph

/-- a balance function: the cuts it returns on a tree are sides of edges and balanced as requested; it finds no cut in a
graph without edges -/
def BalanceOk (f : Bool → PopGraph V → M S (List (Cut V))) : Prop :=
  (∀ oneSided T wt pop ideal eps w cuts w', IsTree T →
    f oneSided (PopGraph.init T.nodes T wt pop ideal eps) w = (.ok cuts, w') →
    ∀ c ∈ cuts, (∃ u v, T.Adj u v ∧ IsSide T u v c.subset) ∧ Near ideal eps (popOf pop c.subset) ∧
      (oneSided = false → Near ideal eps (popOf pop (T.nodes \ c.subset)))) ∧
  (∀ oneSided nodes T wt pop ideal eps w cuts w', T.edges = ∅ →
    f oneSided (PopGraph.init nodes T wt pop ideal eps) w = (.ok cuts, w') → cuts = [])

/-- a cut choice: it returns one of the cuts -/
def ChoiceOk (f : PopGraph V → List (Cut V) → M S (Cut V)) : Prop :=
  ∀ h cuts w c w', f h cuts w = (.ok c, w') → c ∈ cuts

/-- the set and its complement are connected pieces, balanced as requested -/
def GoodBipartition (G : Graph V) (pop : V → ℚ) (target eps : ℚ) (oneSided : Bool) (A : Finset V) : Prop :=
  A ⊆ G.nodes ∧ ConnectedOn G A ∧ ConnectedOn G (G.nodes \ A) ∧ Near target eps (popOf pop A) ∧
    (oneSided = false → Near target eps (popOf pop (G.nodes \ A)))

theorem balancedEdge_sides {T : Graph V} (hT : IsTree T) {pop : V → ℚ} {ideal eps : ℚ} {u v : V}
    (h : BalancedEdge T pop ideal eps u v) {A : Finset V} (hA : IsSide T u v A) :
    Near ideal eps (popOf pop A) ∧ Near ideal eps (popOf pop (T.nodes \ A)) := by
  obtain ⟨ha, X, Y, h1, h2, h3, h4⟩ := h
  obtain ⟨A', k1, k2⟩ := side_compl hT ha
  have e := hA.unique k1
  subst e
  rw [h1.unique hA] at h3
  rw [h2.unique k2] at h4
  exact ⟨h3, h4⟩

theorem filter_degree_nil {T : Graph V} (h : T.edges = ∅) : (iter T.nodes).filter (fun x => T.degree x > 1) = [] := by
  rw [List.filter_eq_nil_iff]
  intro x _
  have : T.neighbors x = ∅ := by
    ext y
    simp [Graph.neighbors, Graph.Adj, h]
  simp [Graph.degree, this]

/-- the memoization algorithm qualifies -/
theorem balanceOk_memo (R : Rand S) (hR : R.Valid) : BalanceOk (V := V) (memoBalance R) := by
  refine ⟨?_, ?_⟩
  swap
  · intro oneSided nodes T wt pop ideal eps w cuts w' he hret
    obtain ⟨w2, hc⟩ := hR.choice_nil (α := V) w
    have : memoBalance R oneSided (PopGraph.init nodes T wt pop ideal eps) w = (.error .indexError, w2) := by
      unfold memoBalance cutsMemoization
      refine M.bind_error ?_
      show R.choice ((iter T.nodes).filter (fun x => T.degree x > 1)) w = _
      rw [filter_degree_nil he]; exact hc
    rw [this] at hret
    cases hret
  intro oneSided T wt pop ideal eps w cuts w' hT hret c hc
  have hret' : cutsMemoization R (2 * T.nodes.card) (PopGraph.init T.nodes T wt pop ideal eps) oneSided w = (.ok cuts, w') := hret
  by_cases h3 : 3 ≤ T.nodes.card
  · rcases oneSided with _ | _
    · obtain ⟨cuts', w2, h1, _, h2, _⟩ := C32_memoization hT h3 R hR wt pop ideal eps (le_refl _) w
      rw [hret'] at h1
      cases h1
      obtain ⟨a1, a2⟩ := h2 c hc
      have := balancedEdge_sides hT a1.symm a2
      exact ⟨⟨_, _, a1.1.symm, a2⟩, this.1, fun _ => this.2⟩
    · obtain ⟨cuts', w2, h1, _, h2, _⟩ := C32_memoization_one_sided hT h3 R hR wt pop ideal eps (le_refl _) w
      rw [hret'] at h1
      cases h1
      obtain ⟨a1, a2, a3⟩ := h2 c hc
      refine ⟨?_, a3, by simp⟩
      rcases a2 with a2 | a2
      · exact ⟨_, _, a1, a2⟩
      · exact ⟨_, _, a1.symm, a2⟩
  · obtain ⟨w2, h2⟩ := (C31_two_nodes hT (by omega) R hR wt pop ideal eps oneSided (2 * T.nodes.card) w).2
    rw [hret'] at h2
    cases h2

/-- the contraction algorithm qualifies -/
theorem balanceOk_contr (R : Rand S) (hR : R.Valid) : BalanceOk (V := V) (contrBalance R) := by
  refine ⟨?_, ?_⟩
  swap
  · intro oneSided nodes T wt pop ideal eps w cuts w' he hret
    obtain ⟨w2, hc⟩ := hR.choice_nil (α := V) w
    have : contrBalance R oneSided (PopGraph.init nodes T wt pop ideal eps) w = (.error .indexError, w2) := by
      unfold contrBalance cutsContraction
      refine M.bind_error ?_
      show R.choice ((iter T.nodes).filter (fun x => T.degree x > 1)) w = _
      rw [filter_degree_nil he]; exact hc
    rw [this] at hret
    cases hret
  intro oneSided T wt pop ideal eps w cuts w' hT hret c hc
  have hret' : cutsContraction R T.nodes.card (PopGraph.init T.nodes T wt pop ideal eps) oneSided w = (.ok cuts, w') := hret
  by_cases h3 : 3 ≤ T.nodes.card
  · rcases oneSided with _ | _
    · obtain ⟨cuts', w2, h1, _, h2, _⟩ := C31_contraction hT h3 R hR wt pop ideal eps (le_refl _) w
      rw [hret'] at h1
      cases h1
      obtain ⟨a1, a2⟩ := h2 c hc
      have := balancedEdge_sides hT a1 a2
      exact ⟨⟨_, _, a1.1, a2⟩, this.1, fun _ => this.2⟩
    · obtain ⟨cuts', w2, root, h1, _, _, h2, _⟩ := C31_contraction_one_sided hT h3 R hR wt pop ideal eps (le_refl _) w
      rw [hret'] at h1
      cases h1
      obtain ⟨a1, a2, _, a4⟩ := h2 c hc
      exact ⟨⟨_, _, a1, a2⟩, le_of_lt a4, by simp⟩
  · obtain ⟨w2, h2⟩ := (C31_two_nodes hT (by omega) R hR wt pop ideal eps oneSided T.nodes.card w).1
    rw [hret'] at h2
    cases h2

/-- a cut found by a qualifying function on a spanning tree is a good bipartition -/
theorem BalanceOk.good {f : Bool → PopGraph V → M S (List (Cut V))} (hf : BalanceOk f) {G : Graph V} {t : WTree V}
    (ht : TreeOk G t.graph) {oneSided : Bool} {pop : V → ℚ} {target eps : ℚ} {w w' : S} {cuts : List (Cut V)}
    (h : f oneSided (PopGraph.init G.nodes t.graph t.weight pop target eps) w = (.ok cuts, w')) {c : Cut V} (hc : c ∈ cuts) :
    GoodBipartition G pop target eps oneSided c.subset := by
  rcases ht with ht | ht
  swap
  · rw [hf.2 _ _ _ _ _ _ _ _ _ _ ht.2 h] at hc
    cases hc
  rw [← ht.nodes] at h
  obtain ⟨⟨u, v, h1, h2⟩, h3, h4⟩ := hf.1 oneSided t.graph t.weight pop target eps w cuts w' ht.tree h c hc
  obtain ⟨k1, k2, k3⟩ := side_bipartition ht h1 h2
  rw [ht.nodes] at h4
  exact ⟨k1, k2, k3, h3, h4⟩

/-! ### The loops -/

/-- decomposition of a successful bind -/
theorem M.bind_eq_ok {α β : Type} {m : M S α} {f : α → M S β} {s s' : S} {b : β} (h : (m >>= f) s = (.ok b, s')) :
    ∃ a s1, m s = (.ok a, s1) ∧ f a s1 = (.ok b, s') := by
  have h : M.bind m f s = (.ok b, s') := h
  unfold M.bind at h
  rcases hm : m s with ⟨e | a, s1⟩
  · rw [hm] at h; cases h
  · rw [hm] at h; exact ⟨a, s1, rfl, h⟩

theorem bipStep_ok {cfg : BipConfig V S} {bal : Bool → PopGraph V → M S (List (Cut V))} {oneSided : Bool}
    (hb : cfg.balanceFn = bal oneSided) (hbal : BalanceOk bal) (hspan : SpanOk cfg.spanFn)
    {G : Graph V} (hG : G.WF) (hconn : ConnectedOn G G.nodes) {pop : V → ℚ} {target eps : ℚ}
    {t : WTree V} (ht : TreeOk G t.graph) {r : ℕ} {w w' : S} {res : WTree V × ℕ × PopGraph V × List (Cut V)}
    (h : bipStep cfg G pop target eps t r w = (.ok res, w')) :
    TreeOk G res.1.graph ∧ ∀ c ∈ res.2.2.2, GoodBipartition G pop target eps oneSided c.subset := by
  unfold bipStep at h
  obtain ⟨⟨t1, r1⟩, w1, h1, h3⟩ := M.bind_eq_ok h
  have ht1 : TreeOk G t1.graph := by
    by_cases hr : r = cfg.nodeRepeats
    · rw [if_pos hr] at h1
      obtain ⟨t2, w2, k1, k2⟩ := M.bind_eq_ok h1
      cases k2
      exact hspan G w _ _ hG hconn k1
    · rw [if_neg hr] at h1
      cases h1
      exact ht
  simp only at h3
  obtain ⟨cuts, w2, k1, k2⟩ := M.bind_eq_ok h3
  cases k2
  rw [hb] at k1
  exact ⟨ht1, fun c hc => hbal.good ht1 k1 hc⟩

theorem bipLoop_ok {cfg : BipConfig V S} {bal : Bool → PopGraph V → M S (List (Cut V))} {oneSided : Bool}
    (hb : cfg.balanceFn = bal oneSided) (hbal : BalanceOk bal) (hspan : SpanOk cfg.spanFn)
    {cutChoice : PopGraph V → List (Cut V) → M S (Cut V)} (hch : ChoiceOk cutChoice) {allow : Bool}
    {G : Graph V} (hG : G.WF) (hconn : ConnectedOn G G.nodes) {pop : V → ℚ} {target eps : ℚ} :
    ∀ (fuel : ℕ) (t : WTree V) (r a : ℕ) (w w' : S) (A : Finset V), TreeOk G t.graph →
      bipLoop cfg cutChoice allow G pop target eps fuel t r a w = (.ok A, w') →
      GoodBipartition G pop target eps oneSided A := by
  intro fuel
  induction fuel with
  | zero => intro t r a w w' A _ h; cases h
  | succ n ih =>
    intro t r a w w' A ht h
    unfold bipLoop at h
    by_cases ha : attemptsLeft cfg.maxAttempts a = true
    · rw [if_pos ha] at h
      obtain ⟨⟨t1, r1, h1, cuts⟩, w1, k1, k2⟩ := M.bind_eq_ok h
      obtain ⟨g1, g2⟩ := bipStep_ok hb hbal hspan hG hconn ht k1
      simp only at k2 g1 g2
      by_cases hc : cuts ≠ []
      · rw [if_pos hc] at k2
        obtain ⟨c, w2, j1, j2⟩ := M.bind_eq_ok k2
        cases j2
        exact g2 c (hch _ _ _ _ _ j1)
      · rw [if_neg hc] at k2
        exact ih _ _ _ _ _ _ g1 k2
    · rw [if_neg ha] at h
      rcases allow with _ | _ <;> cases h

/-- **C34** Whenever `bipartition_tree` returns, the returned set and its complement are nonempty connected subgraphs, the
returned set is within `eps` of the target and, for two-sided cuts, so is its complement; for every spanning tree function,
balance function, cut choice, world, number of repeats and attempts. -/
theorem C34_bipartition_tree (cfg : BipConfig V S) (bal : Bool → PopGraph V → M S (List (Cut V))) (oneSided : Bool)
    (hb : cfg.balanceFn = bal oneSided) (hbal : BalanceOk bal) (hspan : SpanOk cfg.spanFn)
    (cutChoice : PopGraph V → List (Cut V) → M S (Cut V)) (hch : ChoiceOk cutChoice) (allow : Bool) (fuel : ℕ)
    (G : Graph V) (hG : G.WF) (hconn : ConnectedOn G G.nodes)
    (tree : Option (WTree V)) (htree : ∀ t, tree = some t → TreeOk G t.graph)
    (pop : V → ℚ) (target eps : ℚ) (w w' : S) (A : Finset V)
    (hret : bipartitionTree cfg cutChoice allow fuel tree G pop target eps w = (.ok A, w')) :
    A ⊆ G.nodes ∧ ConnectedOn G A ∧ ConnectedOn G (G.nodes \ A) ∧ Near target eps (popOf pop A) ∧
      (oneSided = false → Near target eps (popOf pop (G.nodes \ A))) := by
  unfold bipartitionTree at hret
  obtain ⟨t, w1, h1, h3⟩ := M.bind_eq_ok hret
  refine bipLoop_ok hb hbal hspan hch hG hconn fuel t 0 0 w1 w' A ?_ h3
  rcases tree with _ | t0
  · exact hspan G _ _ _ hG hconn h1
  · cases h1
    exact htree _ rfl

theorem randomAllLoop_ok {cfg : BipConfig V S} {bal : Bool → PopGraph V → M S (List (Cut V))} {oneSided : Bool}
    (hb : cfg.balanceFn = bal oneSided) (hbal : BalanceOk bal) (hspan : SpanOk cfg.spanFn) {rep : Bool}
    {G : Graph V} (hG : G.WF) (hconn : ConnectedOn G G.nodes) {pop : V → ℚ} {target eps : ℚ} :
    ∀ (fuel : ℕ) (t : WTree V) (r a : ℕ) (w w' : S) (cuts : List (Cut V)), TreeOk G t.graph →
      randomAllLoop cfg rep G pop target eps fuel t r a w = (.ok cuts, w') →
      (rep = true → cuts ≠ []) ∧ ∀ c ∈ cuts, GoodBipartition G pop target eps oneSided c.subset := by
  intro fuel
  induction fuel with
  | zero => intro t r a w w' A _ h; cases h
  | succ n ih =>
    intro t r a w w' A ht h
    unfold randomAllLoop at h
    by_cases ha : attemptsLeft cfg.maxAttempts a = true
    · rw [if_pos ha] at h
      obtain ⟨⟨t1, r1, h1, cuts⟩, w1, k1, k2⟩ := M.bind_eq_ok h
      obtain ⟨g1, g2⟩ := bipStep_ok hb hbal hspan hG hconn ht k1
      simp only at k2 g1 g2
      by_cases hc : (rep && cuts.isEmpty) = true
      · rw [if_pos hc] at k2
        exact ih _ _ _ _ _ _ g1 k2
      · rw [if_neg hc] at k2
        cases k2
        refine ⟨?_, g2⟩
        rintro rfl rfl
        simp at hc
    · rw [if_neg ha] at h
      cases h

/-- **C34** for `_bipartition_tree_random_all`: every cut it returns is good, and there is one if it repeats until valid. -/
theorem C34_random_all (cfg : BipConfig V S) (bal : Bool → PopGraph V → M S (List (Cut V))) (oneSided : Bool)
    (hb : cfg.balanceFn = bal oneSided) (hbal : BalanceOk bal) (hspan : SpanOk cfg.spanFn) (rep : Bool) (fuel : ℕ)
    (G : Graph V) (hG : G.WF) (hconn : ConnectedOn G G.nodes)
    (tree : Option (WTree V)) (htree : ∀ t, tree = some t → TreeOk G t.graph)
    (pop : V → ℚ) (target eps : ℚ) (w w' : S) (cuts : List (Cut V))
    (hret : bipartitionRandomAll cfg rep fuel tree G pop target eps w = (.ok cuts, w')) :
    (rep = true → cuts ≠ []) ∧ ∀ c ∈ cuts, c.subset ⊆ G.nodes ∧ ConnectedOn G c.subset ∧ ConnectedOn G (G.nodes \ c.subset) ∧
      Near target eps (popOf pop c.subset) ∧ (oneSided = false → Near target eps (popOf pop (G.nodes \ c.subset))) := by
  unfold bipartitionRandomAll at hret
  obtain ⟨t, w1, h1, h3⟩ := M.bind_eq_ok hret
  refine randomAllLoop_ok hb hbal hspan hG hconn fuel t 0 0 w1 w' cuts ?_ h3
  rcases tree with _ | t0
  · exact hspan G _ _ _ hG hconn h1
  · cases h1
    exact htree _ rfl

/-! ### Termination -/

/-- With a bound on the attempts, callables that always return and a tree with at least three nodes, `bipartition_tree` returns a
set or raises the documented exception; it never loops forever and never raises anything else. -/
theorem C34_outcomes (cfg : BipConfig V S) (m : ℕ) (hm : cfg.maxAttempts = some m)
    (G : Graph V) (pop : V → ℚ) (target eps : ℚ) (allow : Bool)
    (hspan : ∀ w, ∃ t w', cfg.spanFn G w = (.ok t, w') ∧ IsSpanningTree t.graph G)
    (hbal : ∀ (t : WTree V) (w : S), IsSpanningTree t.graph G → ∃ cuts w',
      cfg.balanceFn (PopGraph.init G.nodes t.graph t.weight pop target eps) w = (.ok cuts, w'))
    (cutChoice : PopGraph V → List (Cut V) → M S (Cut V))
    (hch : ∀ h cuts w, cuts ≠ [] → ∃ c w', cutChoice h cuts w = (.ok c, w'))
    (tree : Option (WTree V)) (htree : ∀ t, tree = some t → IsSpanningTree t.graph G) (fuel : ℕ) (hf : m < fuel) (w : S) :
    (∃ A, (bipartitionTree cfg cutChoice allow fuel tree G pop target eps w).1 = .ok A) ∨
    (bipartitionTree cfg cutChoice allow fuel tree G pop target eps w).1 =
      .error (if allow then .reselectException else .runtimeError) := by
  have hstep : ∀ t r w, IsSpanningTree t.graph G → ∃ res w', bipStep cfg G pop target eps t r w = (.ok res, w') ∧
      IsSpanningTree res.1.graph G := by
    intro t r w ht
    unfold bipStep
    by_cases hr : r = cfg.nodeRepeats
    · obtain ⟨t1, w1, h1, h2⟩ := hspan w
      obtain ⟨cuts, w2, h3⟩ := hbal t1 w1 h2
      refine ⟨(t1, 0, PopGraph.init G.nodes t1.graph t1.weight pop target eps, cuts), w2, ?_, h2⟩
      rw [if_pos hr, M.bind_ok (a := (t1, 0)) (s' := w1)]
      · simp only
        rw [M.bind_ok h3]
        rfl
      · rw [M.bind_ok h1]; rfl
    · obtain ⟨cuts, w2, h3⟩ := hbal t w ht
      refine ⟨(t, r, PopGraph.init G.nodes t.graph t.weight pop target eps, cuts), w2, ?_, ht⟩
      rw [if_neg hr, M.bind_ok (show (pure (t, r) : M S (WTree V × ℕ)) w = (.ok (t, r), w) from rfl)]
      simp only
      rw [M.bind_ok h3]
      rfl
  have hloop : ∀ (fuel : ℕ) (t : WTree V) (r a : ℕ) (w : S), IsSpanningTree t.graph G → m < a + fuel →
      (∃ A, (bipLoop cfg cutChoice allow G pop target eps fuel t r a w).1 = .ok A) ∨
      (bipLoop cfg cutChoice allow G pop target eps fuel t r a w).1 =
        .error (if allow then .reselectException else .runtimeError) ∨ (fuel = 0 ∧ m < a) := by
    intro fuel
    induction fuel with
    | zero => intro t r a w _ h; exact Or.inr (Or.inr ⟨rfl, by omega⟩)
    | succ n ih =>
      intro t r a w ht hlt
      unfold bipLoop
      by_cases ha : attemptsLeft cfg.maxAttempts a = true
      · rw [if_pos ha]
        obtain ⟨⟨t1, r1, h1, cuts⟩, w1, k1, k2⟩ := hstep t r w ht
        rw [M.bind_ok k1]
        simp only
        by_cases hc : cuts ≠ []
        · rw [if_pos hc]
          obtain ⟨c, w2, j1⟩ := hch h1 cuts w1 hc
          rw [M.bind_ok j1]
          exact Or.inl ⟨_, rfl⟩
        · rw [if_neg hc]
          rcases ih t1 (r1 + 1) (a + 1) w1 k2 (by omega) with h' | h' | ⟨h', h''⟩
          · exact Or.inl h'
          · exact Or.inr (Or.inl h')
          · rw [hm] at ha
            simp only [attemptsLeft, decide_eq_true_eq] at ha
            omega
      · rw [if_neg ha]
        rcases allow with _ | _
        · exact Or.inr (Or.inl rfl)
        · exact Or.inr (Or.inl rfl)
  have hfin : ∀ t w, IsSpanningTree t.graph G →
      (∃ A, (bipLoop cfg cutChoice allow G pop target eps fuel t 0 0 w).1 = .ok A) ∨
      (bipLoop cfg cutChoice allow G pop target eps fuel t 0 0 w).1 =
        .error (if allow then .reselectException else .runtimeError) := by
    intro t w ht
    rcases hloop fuel t 0 0 w ht (by omega) with h' | h' | ⟨h', _⟩
    · exact Or.inl h'
    · exact Or.inr h'
    · omega
  unfold bipartitionTree
  rcases tree with _ | t0
  · obtain ⟨t, w1, h1, h2⟩ := hspan w
    simp only
    rw [M.bind_ok h1]
    exact hfin t w1 h2
  · simp only
    rw [M.bind_ok (show (pure t0 : M S (WTree V)) w = (.ok t0, w) from rfl)]
    exact hfin t0 w (htree _ rfl)

/-! ### `bipartition_tree_random` -/

/-- **C35** (partial) Whenever `bipartition_tree_random` returns a set, the set and its complement are connected and the set
is within `eps` of the target - whatever the argument `one_sided_cut`.  Missing: the complement need not be balanced even
with `one_sided_cut=False`, see `C35_violation`. -/
theorem C35_random_partial (R : Rand S) (hR : R.Valid) (spanFn : Graph V → M S (WTree V)) (hspan : SpanOk spanFn)
    (bal : Bool → PopGraph V → M S (List (Cut V))) (hbal : BalanceOk bal) (nodeRepeats : ℕ) (maxAttempts : Option ℕ)
    (rep : Bool) (fuel : ℕ) (oneSidedCut : Bool)
    (G : Graph V) (hG : G.WF) (hconn : ConnectedOn G G.nodes)
    (tree : Option (WTree V)) (htree : ∀ t, tree = some t → TreeOk G t.graph)
    (pop : V → ℚ) (target eps : ℚ) (w w' : S) (r : Option (Finset V))
    (hret : bipartitionTreeRandom R spanFn bal nodeRepeats maxAttempts rep fuel tree oneSidedCut G pop target eps w =
      (.ok r, w')) :
    (rep = true → r ≠ none) ∧ ∀ A, r = some A → A ⊆ G.nodes ∧ ConnectedOn G A ∧ ConnectedOn G (G.nodes \ A) ∧
      Near target eps (popOf pop A) := by
  unfold bipartitionTreeRandom at hret
  obtain ⟨cuts, w1, h1, h3⟩ := M.bind_eq_ok hret
  obtain ⟨k1, k2⟩ := C34_random_all ⟨spanFn, bal true, nodeRepeats, maxAttempts⟩ bal true rfl hbal hspan rep fuel G hG hconn
    tree htree pop target eps w w1 cuts h1
  by_cases hc : cuts ≠ []
  · rw [if_pos hc] at h3
    obtain ⟨c, w2, j1, j2⟩ := M.bind_eq_ok h3
    cases j2
    obtain ⟨c', hm, w3, j3⟩ := hR.choice_mem cuts w1 hc
    rw [j1] at j3
    cases j3
    refine ⟨by simp, ?_⟩
    rintro A ⟨⟩
    obtain ⟨a1, a2, a3, a4, _⟩ := k2 c hm
    exact ⟨a1, a2, a3, a4⟩
  · rw [if_neg hc] at h3
    cases h3
    exact ⟨fun hr => absurd (k1 hr) hc, by simp⟩

/-- a path with three nodes -/
def exPath : Graph ℕ := ⟨{0, 1, 2}, {(0, 1), (1, 2)}⟩

theorem exPath_isTree : IsTree exPath where
  wf := ⟨by decide, by decide, by decide⟩
  conn := by
    rw [← nxIsConnected_true ⟨by decide, by decide, by decide⟩]
    decide +kernel
  card := by decide

theorem exPath_spanning : IsSpanningTree exPath exPath := ⟨exPath_isTree, rfl, fun _ _ h => h⟩

/-- the spanning tree function that returns the graph, on trees -/
def idSpan : Graph ℕ → M (List ℕ) (WTree ℕ) := fun G => pure ⟨G, fun _ _ => none⟩

/-- **C35**, violation: a path of three nodes of population 1, target 1 and epsilon 0.  `bipartition_tree_random` with
`one_sided_cut=False` and the memoization algorithm returns one node; the other side has population 2. -/
theorem C35_violation : ∃ (A : Finset ℕ) (w' : List ℕ),
    bipartitionTreeRandom tapeRand idSpan (memoBalance tapeRand) 1 (some 5) true 10 none false exPath (fun _ => 1) 1 0 [] =
      (.ok (some A), w') ∧ ¬ Near 1 0 (popOf (fun _ => 1) (exPath.nodes \ A)) := by
  have key : (match bipartitionTreeRandom tapeRand idSpan (memoBalance tapeRand) 1 (some 5) true 10 none false exPath
      (fun _ => 1) 1 0 [] with
    | (.ok (some A), _) => decide ((exPath.nodes \ A).card = 2)
    | _ => false) = true := by decide +kernel
  rcases h : bipartitionTreeRandom tapeRand idSpan (memoBalance tapeRand) 1 (some 5) true 10 none false exPath
      (fun _ => 1) 1 0 [] with ⟨e | (_ | A), w'⟩
  · rw [h] at key; cases key
  · rw [h] at key; cases key
  · rw [h] at key
    refine ⟨A, w', rfl, ?_⟩
    have : (exPath.nodes \ A).card = 2 := by simpa using key
    simp only [Near, popOf, Finset.sum_const, this]
    norm_num

/-! ### Examples -/

theorem choiceOk_rand (R : Rand S) (hR : R.Valid) : ChoiceOk (V := V) (fun _ => R.choice) := by
  intro _ cuts w c w' h
  by_cases hc : cuts = []
  · subst hc
    obtain ⟨s', h'⟩ := hR.choice_nil (α := Cut V) w
    have h : R.choice [] w = (.ok c, w') := h
    rw [h'] at h
    cases h
  · obtain ⟨x, hx, s', h'⟩ := hR.choice_mem cuts w hc
    have h : R.choice cuts w = (.ok c, w') := h
    rw [h'] at h
    cases h
    exact hx

/-- the star with a tail and one more edge, so that it is not a tree -/
def exCyc : Graph ℕ := ⟨{0, 1, 2, 3, 4, 5}, {(0, 1), (0, 3), (1, 3), (2, 3), (3, 4), (4, 5)}⟩

theorem exCyc_wf : exCyc.WF := ⟨by decide, by decide, by decide⟩

theorem exCyc_conn : ConnectedOn exCyc exCyc.nodes := by
  rw [← nxIsConnected_true exCyc_wf]
  decide +kernel

theorem exCyc_spanning : IsSpanningTree exTree exCyc := ⟨exTree_isTree, rfl, by
  intro u v h
  rcases h with h | h
  · exact Or.inl ((by decide : exTree.edges ⊆ exCyc.edges) h)
  · exact Or.inr ((by decide : exTree.edges ⊆ exCyc.edges) h)⟩

/-- the hypotheses of C34 are met and the call returns the two end nodes of the tail -/
example : (bipartitionTree (⟨fun _ => M.raise .runtimeError, memoBalance tapeRand false, 1, some 3⟩ : BipConfig ℕ (List ℕ))
    (fun _ => tapeRand.choice) false 10 (some ⟨exTree, fun _ _ => none⟩) exCyc exTreePop 4 0 [1]).1 = .ok {4, 5} ∧
    BalanceOk (V := ℕ) (memoBalance tapeRand) ∧
    SpanOk (fun _ => M.raise .runtimeError : Graph ℕ → M (List ℕ) (WTree ℕ)) ∧
    ChoiceOk (fun _ => tapeRand.choice : PopGraph ℕ → List (Cut ℕ) → M (List ℕ) (Cut ℕ)) := by
  refine ⟨by decide +kernel, balanceOk_memo _ tapeRand_valid, ?_, ?_⟩
  · intro G w t w' _ _ h
    cases h
  · exact choiceOk_rand _ tapeRand_valid

/-- C34_outcomes: no balanced cut in the only tree (target 5, epsilon 0), three attempts, the error of line 718 -/
example : (bipartitionTree (⟨fun _ => pure ⟨exTree, fun _ _ => none⟩, memoBalance tapeRand false, 1, some 3⟩ :
    BipConfig ℕ (List ℕ)) (fun _ => tapeRand.choice) false 4 none exCyc exTreePop 5 0 []).1 = .error .runtimeError ∧
    (bipartitionTree (⟨fun _ => pure ⟨exTree, fun _ _ => none⟩, memoBalance tapeRand false, 1, some 3⟩ :
    BipConfig ℕ (List ℕ)) (fun _ => tapeRand.choice) true 4 none exCyc exTreePop 5 0 []).1 = .error .reselectException := by
  decide +kernel

/-! ### The choice of the cut -/

theorem pyMaxBy_spec {α : Type} (key : α → ℚ) (l : List α) (hl : l ≠ []) :
    ∃ x ∈ l, pyMaxBy key l = .ok x ∧ ∀ y ∈ l, key y ≤ key x := by
  rcases l with _ | ⟨a, l⟩
  · exact absurd rfl hl
  have gen : ∀ (l : List α) (a : α), (l.foldl (fun best y => if key best < key y then y else best) a) ∈ a :: l ∧
      ∀ y ∈ a :: l, key y ≤ key (l.foldl (fun best y => if key best < key y then y else best) a) := by
    intro l
    induction l with
    | nil => intro a; simp
    | cons b l ih =>
      intro a
      simp only [List.foldl_cons]
      obtain ⟨h1, h2⟩ := ih (if key a < key b then b else a)
      refine ⟨?_, ?_⟩
      · rcases List.mem_cons.1 h1 with h | h
        · rw [h]; split <;> simp
        · exact List.mem_cons_of_mem _ (List.mem_cons_of_mem _ h)
      · have h3 := h2 _ (List.mem_cons_self)
        intro y hy
        rcases List.mem_cons.1 hy with rfl | hy
        · refine le_trans ?_ h3
          split
          · rename_i h; exact le_of_lt h
          · exact le_rfl
        · rcases List.mem_cons.1 hy with rfl | hy
          · refine le_trans ?_ h3
            split
            · exact le_rfl
            · rename_i h; exact not_lt.1 h
          · exact h2 y (List.mem_cons_of_mem _ hy)
  exact ⟨_, (gen l a).1, rfl, (gen l a).2⟩

theorem maxWeightChoice_spec (cuts : List (Cut V)) (h : cuts ≠ []) :
    ∃ c ∈ cuts, maxWeightChoice cuts = .ok c ∧ ∀ c' ∈ cuts, c'.weight ≤ c.weight := by
  unfold maxWeightChoice
  rw [if_neg h]
  exact pyMaxBy_spec Cut.weight cuts h

theorem mem_combinations {α : Type} : ∀ (xs : List α) (n : ℕ) (l : List α),
    l ∈ combinations n xs ↔ l.Sublist xs ∧ l.length = n := by
  intro xs
  induction xs with
  | nil =>
    intro n l
    rcases n with _ | n
    · simp only [combinations, List.mem_singleton, List.sublist_nil, List.length_eq_zero_iff, and_self]
    · simp only [combinations, List.not_mem_nil, List.sublist_nil, false_iff, not_and]
      rintro rfl
      simp
  | cons x xs ih =>
    intro n l
    rcases n with _ | n
    · simp only [combinations, List.mem_singleton, List.length_eq_zero_iff]
      constructor
      · rintro rfl; exact ⟨List.nil_sublist _, rfl⟩
      · exact fun h => h.2
    · simp only [combinations, List.mem_append, List.mem_map, ih]
      constructor
      · rintro (⟨a, ⟨h1, h2⟩, rfl⟩ | ⟨h1, h2⟩)
        · exact ⟨h1.cons_cons x, by simp [h2]⟩
        · exact ⟨h1.cons x, h2⟩
      · rintro ⟨h1, h2⟩
        cases h1 with
        | cons _ h => exact Or.inr ⟨h, h2⟩
        | cons_cons _ h => exact Or.inl ⟨_, ⟨h, by simpa using h2⟩, rfl⟩

theorem mem_powerSetSorted {d : Dict String ℚ} {l : List String} :
    l ∈ powerSetSorted d ↔ l.Sublist d.keys ∧ l ≠ [] := by
  unfold powerSetSorted
  rw [List.mem_insertionSort]
  simp only [List.mem_flatMap, List.mem_range, mem_combinations]
  constructor
  · rintro ⟨i, _, h1, h2⟩
    refine ⟨h1, ?_⟩
    rintro rfl
    simp at h2
  · rintro ⟨h1, h2⟩
    have := h1.length_le
    have := List.length_pos_iff.2 h2
    exact ⟨l.length - 1, by omega, h1, by omega⟩

theorem psKeyGe_trans (d : Dict String ℚ) {a b c : List String} (h1 : psKeyGe d a b) (h2 : psKeyGe d b c) : psKeyGe d a c := by
  unfold psKeyGe at *
  rcases h1 with h1 | ⟨h1, h1'⟩ <;> rcases h2 with h2 | ⟨h2, h2'⟩
  · exact Or.inl (by omega)
  · exact Or.inl (by omega)
  · exact Or.inl (by omega)
  · exact Or.inr ⟨by omega, le_trans h2' h1'⟩

theorem psKeyGe_total (d : Dict String ℚ) (a b : List String) : psKeyGe d a b ∨ psKeyGe d b a := by
  unfold psKeyGe
  rcases lt_trichotomy a.length b.length with h | h | h
  · exact Or.inr (Or.inl h)
  · rcases le_total (surchargeSum d a) (surchargeSum d b) with h' | h'
    · exact Or.inr (Or.inr ⟨h, h'⟩)
    · exact Or.inl (Or.inr ⟨h.symm, h'⟩)
  · exact Or.inl (Or.inl h)

theorem powerSetSorted_sorted (d : Dict String ℚ) : (powerSetSorted d).Pairwise (psKeyGe d) := by
  have : IsTrans (List String) (psKeyGe d) := ⟨fun _ _ _ => psKeyGe_trans d⟩
  have : Std.Total (psKeyGe d) := ⟨psKeyGe_total d⟩
  exact List.pairwise_insertionSort _ _

theorem firstSuitable_none (crosses : String → Cut V → Bool) (cuts : List (Cut V)) :
    ∀ L, firstSuitable crosses cuts L = none → ∀ comb ∈ L, ∀ c ∈ cuts, ∃ k ∈ comb, crosses k c = false := by
  intro L
  induction L with
  | nil => simp
  | cons a L ih =>
    intro h
    unfold firstSuitable at h
    simp only at h
    by_cases hs : cuts.filter (fun c => a.all (fun k => crosses k c)) ≠ []
    · rw [if_pos hs] at h; cases h
    · rw [if_neg hs] at h
      push Not at hs
      intro comb hc c hcu
      rcases List.mem_cons.1 hc with rfl | hc
      · have := List.filter_eq_nil_iff.1 hs c hcu
        simpa using this
      · exact ih h comb hc c hcu

theorem firstSuitable_some (crosses : String → Cut V → Bool) (cuts : List (Cut V)) (R : List String → List String → Prop) :
    ∀ L s, L.Pairwise R → firstSuitable crosses cuts L = some s → ∃ comb ∈ L,
      s = cuts.filter (fun c => comb.all (fun k => crosses k c)) ∧ s ≠ [] ∧
      ∀ comb' ∈ L, (∃ c ∈ cuts, ∀ k ∈ comb', crosses k c = true) → comb' = comb ∨ R comb comb' := by
  intro L
  induction L with
  | nil => intro s _ h; cases h
  | cons a L ih =>
    intro s hp h
    unfold firstSuitable at h
    simp only at h
    rw [List.pairwise_cons] at hp
    by_cases hs : cuts.filter (fun c => a.all (fun k => crosses k c)) ≠ []
    · rw [if_pos hs] at h
      cases h
      refine ⟨a, List.mem_cons_self, rfl, hs, ?_⟩
      intro comb' hc _
      rcases List.mem_cons.1 hc with rfl | hc
      · exact Or.inl rfl
      · exact Or.inr (hp.1 _ hc)
    · rw [if_neg hs] at h
      push Not at hs
      obtain ⟨comb, h1, h2, h3, h4⟩ := ih s hp.2 h
      refine ⟨comb, List.mem_cons_of_mem _ h1, h2, h3, ?_⟩
      intro comb' hc hex
      rcases List.mem_cons.1 hc with rfl | hc
      · obtain ⟨c, hcu, hk⟩ := hex
        have := List.filter_eq_nil_iff.1 hs c hcu
        exact absurd (List.all_eq_true.2 hk) this
      · exact h4 comb' hc hex

/-- the regions whose boundary the edge of a cut lies on -/
def crossed {A : Type} [DecidableEq A] (attr : String → V → Option A) (d : Dict String ℚ) (c : Cut V) : List String :=
  d.keys.filter (fun k => decide (attr k c.edge.1 ≠ attr k c.edge.2))

/-- **C63** With a dictionary of one to three regions and at least one cut, `_region_preferred_max_weight_choice` returns a
cut that crosses as many regions as any other cut, among those with the greatest sum of surcharges, and of greatest weight
among the cuts that cross the same regions. -/
theorem C63_region_choice {A : Type} [DecidableEq A] (R : Rand S) (attr : String → V → Option A) (d : Dict String ℚ)
    (h1 : 1 ≤ d.keys.length) (h3 : d.keys.length ≤ 3) (cuts : List (Cut V)) (hne : cuts ≠ []) (w : S) :
    ∃ c ∈ cuts, regionChoice R attr (some d) cuts w = (.ok c, w) ∧ ∀ c' ∈ cuts,
      ((crossed attr d c').length < (crossed attr d c).length ∨
        ((crossed attr d c').length = (crossed attr d c).length ∧
          ((crossed attr d c').map (fun k => (d.get? k).getD 0)).sum ≤ ((crossed attr d c).map (fun k => (d.get? k).getD 0)).sum)) ∧
      (crossed attr d c' = crossed attr d c → c'.weight ≤ c.weight) := by
  unfold regionChoice
  simp only
  rw [if_neg hne, if_neg (by omega)]
  have hcr : ∀ (c : Cut V) (comb : List String), comb.Sublist d.keys →
      (∀ k ∈ comb, decide (attr k c.edge.1 ≠ attr k c.edge.2) = true) → comb.Sublist (crossed attr d c) := by
    intro c comb hs hk
    have := hs.filter (fun k => decide (attr k c.edge.1 ≠ attr k c.edge.2))
    rwa [List.filter_eq_self.2 hk] at this
  have hall : ∀ c : Cut V, ∀ k ∈ crossed attr d c, decide (attr k c.edge.1 ≠ attr k c.edge.2) = true :=
    fun c k hk => (List.mem_filter.1 hk).2
  have hsub : ∀ c : Cut V, (crossed attr d c).Sublist d.keys := fun c => List.filter_sublist
  rcases hfs : firstSuitable (fun k c => decide (attr k c.edge.1 ≠ attr k c.edge.2)) cuts (powerSetSorted d) with _ | suitable
  · have hn := firstSuitable_none _ _ _ hfs
    have hnil : ∀ c ∈ cuts, crossed attr d c = [] := by
      intro c hc
      by_contra hcon
      obtain ⟨k, hk, hf⟩ := hn _ (mem_powerSetSorted.2 ⟨hsub c, hcon⟩) c hc
      rw [hall c k hk] at hf
      cases hf
    obtain ⟨c, hc, e, hmax⟩ := maxWeightChoice_spec cuts hne
    refine ⟨c, hc, ?_, fun c' hc' => ⟨Or.inr ?_, fun _ => hmax c' hc'⟩⟩
    · simp only [e]; rfl
    · rw [hnil c hc, hnil c' hc']; simp
  · obtain ⟨comb, k1, k2, k3, k4⟩ := firstSuitable_some _ _ (psKeyGe d) _ _ (powerSetSorted_sorted d) hfs
    obtain ⟨c, hc, e, hmax⟩ := maxWeightChoice_spec suitable k3
    have hc0 := hc
    rw [k2] at hc
    obtain ⟨hcu, hcomb⟩ := List.mem_filter.1 hc
    have hcomb := List.all_eq_true.1 hcomb
    obtain ⟨ks, kne⟩ := mem_powerSetSorted.1 k1
    have hbest : ∀ c' ∈ cuts, crossed attr d c' = comb ∨ psKeyGe d comb (crossed attr d c') := by
      intro c' hc'
      by_cases hcon : crossed attr d c' = []
      · right; left
        rw [hcon]
        exact List.length_pos_iff.2 kne
      · exact k4 _ (mem_powerSetSorted.2 ⟨hsub c', hcon⟩) ⟨c', hc', hall c'⟩
    have heq : crossed attr d c = comb := by
      have hs := hcr c comb ks hcomb
      rcases hbest c hcu with h | h
      · exact h
      · have := hs.length_le
        exact (hs.eq_of_length (by unfold psKeyGe at h; omega)).symm
    refine ⟨c, hcu, ?_, fun c' hc' => ⟨?_, ?_⟩⟩
    · simp only [e]; rfl
    · rw [heq]
      rcases hbest c' hc' with h | h
      · rw [h]; exact Or.inr ⟨rfl, le_rfl⟩
      · exact h
    · intro h
      apply hmax
      rw [k2]
      refine List.mem_filter.2 ⟨hc', List.all_eq_true.2 ?_⟩
      intro k hk
      rw [heq] at h
      rw [← h] at hk
      exact hall c' k hk

/-- the region-preferring choice returns one of the cuts, so C34 applies to it -/
theorem choiceOk_region {A : Type} [DecidableEq A] (R : Rand S) (hR : R.Valid) (attr : String → V → Option A)
    (surcharge : Option (Dict String ℚ)) : ChoiceOk (V := V) (fun _ => regionChoice R attr surcharge) := by
  intro h cuts w c w' hret
  have hret : regionChoice R attr surcharge cuts w = (.ok c, w') := hret
  rcases surcharge with _ | d
  · exact choiceOk_rand R hR h cuts w c w' hret
  · by_cases hne : cuts = []
    · unfold regionChoice at hret
      simp only at hret
      rw [if_pos hne] at hret
      cases hret
    · by_cases hk : d.keys.length < 1 ∨ d.keys.length > 3
      · unfold regionChoice at hret
        simp only at hret
        rw [if_neg hne, if_pos hk] at hret
        obtain ⟨x, hx, e, _⟩ := maxWeightChoice_spec cuts hne
        rw [e] at hret
        cases hret
        exact hx
      · obtain ⟨x, hx, e, _⟩ := C63_region_choice R attr d (by omega) (by omega) cuts hne w
        rw [e] at hret
        cases hret
        exact hx

/-- **C34** for `bipartition_tree` as it is called by default: the memoization algorithm and the region-preferring choice, or
the contraction algorithm, with any random source. -/
theorem C34_default {A : Type} [DecidableEq A] (R : Rand S) (hR : R.Valid) (spanFn : Graph V → M S (WTree V)) (hspan : SpanOk spanFn)
    (nodeRepeats : ℕ) (maxAttempts : Option ℕ) (attr : String → V → Option A) (surcharge : Option (Dict String ℚ))
    (oneSided allow : Bool) (fuel : ℕ) (bal : Bool → PopGraph V → M S (List (Cut V)))
    (hbal : bal = memoBalance R ∨ bal = contrBalance R)
    (G : Graph V) (hG : G.WF) (hconn : ConnectedOn G G.nodes)
    (pop : V → ℚ) (target eps : ℚ) (w w' : S) (X : Finset V)
    (hret : bipartitionTree ⟨spanFn, bal oneSided, nodeRepeats, maxAttempts⟩ (fun _ => regionChoice R attr surcharge) allow fuel
      none G pop target eps w = (.ok X, w')) :
    X ⊆ G.nodes ∧ ConnectedOn G X ∧ ConnectedOn G (G.nodes \ X) ∧ Near target eps (popOf pop X) ∧
      (oneSided = false → Near target eps (popOf pop (G.nodes \ X))) :=
  C34_bipartition_tree ⟨spanFn, bal oneSided, nodeRepeats, maxAttempts⟩ bal oneSided rfl
    (by rcases hbal with rfl | rfl
        · exact balanceOk_memo R hR
        · exact balanceOk_contr R hR)
    hspan _ (choiceOk_region R hR attr surcharge) allow fuel G hG hconn none (by simp) pop target eps w w' X hret

/-- three cuts and two regions: the cut that crosses both regions wins although it is the lightest -/
example : (regionChoice (V := ℕ) tapeRand (fun k v => if k = "county" then some (v / 2) else some (v / 3))
    (some (⟨[("county", 1), ("muni", 2)]⟩ : Dict String ℚ))
    [⟨(0, 1), 9, {0}⟩, ⟨(1, 2), 8, {0, 1}⟩, ⟨(3, 5), 1, {3}⟩, ⟨(2, 4), 2, {4}⟩] []).1.map Cut.edge = .ok (2, 4) := by
  decide +kernel

end GC

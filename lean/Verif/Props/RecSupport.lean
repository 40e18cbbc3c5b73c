import Verif.Props.RecomSupport

/-!
# Which plans recursive_tree_part can return (C100)

With its default method `recursive_tree_part` cuts off one connected district after the other, leaves a connected remainder, and asks that
the error accumulated so far stays within the tolerance of a single district.  A plan can be returned exactly when this works for it in the
order of the labels.
-/

set_option linter.unusedSectionVars false
set_option autoImplicit false

namespace GC

variable {V P S X : Type} [LinearOrder V] [LinearOrder P]

/-! ### One-sided cuts for a given root -/

/-- the part of `find_balanced_edge_cuts_memoization` with `one_sided_cut=True` after the draw of the root (gerrychain/tree.py:376-407) -/
def memoFromOne (R : Rand S) (fuel : ℕ) (h : PopGraph V) (root : V) : M S (List (Cut V)) := do
  let pops ← M.lift (calcPops fuel (successors h.graph root) root h.population)
  memoLoop R fuel h (predecessors h.graph root) (successors h.graph root) true pops.entries []

theorem memoFromOne_spec {T : Graph V} (hT : IsTree T) (R : Rand S) (hR : R.Valid) (wt : V → V → Option ℚ) (pop : V → ℚ) (ideal eps : ℚ)
    {fuel : ℕ} (hf : 2 * T.nodes.card ≤ fuel) {root : V} (hr : root ∈ T.nodes) (w : S) :
    ∃ cuts w', memoFromOne R fuel (PopGraph.init T.nodes T wt pop ideal eps) root w = (.ok cuts, w') ∧
      cuts.length ≤ T.nodes.card ∧
      (∀ u v A, T.Adj u v → IsSide T u v A → root ∉ A → Near ideal eps (popOf pop A) → ∃ c ∈ cuts, c.subset = A) := by
  obtain ⟨par, rank, hRt, hpred, hs'⟩ := bfs_rooted hT hr
  have hs : SuccOk T root par (successors T root) := ⟨hs'.1, hs'.2.1, hs'.2.2⟩
  obtain ⟨pops, p1, p2, p3, p4⟩ := calcPops_spec hRt hs pop hf
  have hkey : (pops.entries.map (·.1)).toFinset = T.nodes.erase root := by
    ext y; rw [List.mem_toFinset, p3]
  have hpos : 0 < T.nodes.card := Finset.card_pos.2 ⟨root, hr⟩
  obtain ⟨cuts, w2, h1, hcf⟩ := memoLoop_spec hRt R hR (PopGraph.init T.nodes T wt pop ideal eps)
    (pred := predecessors T root) hpred hs (fuel := fuel) (by omega) true pops.entries ∅ [] w p2 (by
      intro e he
      have := (p3 e.1).1 (List.mem_map.2 ⟨e, he, rfl⟩)
      rw [Finset.mem_erase] at this
      exact ⟨by simp, this.2, this.1, p4 e he⟩) ⟨by simp, by simp, by simp⟩
  rw [Finset.empty_union, hkey] at hcf
  have hrs : ∀ x ∈ T.nodes, x ≠ root → root ∉ sub T root par x := by
    intro x hx hr hm
    rcases Relation.ReflTransGen.cases_head (mem_sub.1 hm).2 with e | ⟨c, ⟨_, h2, _⟩, _⟩
    · exact hr e.symm
    · exact h2 rfl
  refine ⟨cuts, w2, ?_, ?_, ?_⟩
  · unfold memoFromOne
    show ((M.lift (calcPops fuel (successors T root) root pop) : M S _) >>= _) w = _
    rw [p1]
    exact h1
  · have h2 := List.toFinset_card_of_nodup hcf.nodup
    rw [List.length_map] at h2
    rw [← h2]
    refine Finset.card_le_card (fun x hx => ?_)
    obtain ⟨c, hc, rfl⟩ := List.mem_map.1 (List.mem_toFinset.1 hx)
    exact (Finset.mem_erase.1 (hcf.sound c hc).1).2
  · intro u v A ha hA hrA hnear
    have hm := hT.wf.mem_of_adj ha
    rcases hRt.edge _ _ ha with ⟨h2, rfl⟩ | ⟨h2, rfl⟩
    · have e := hA.unique (isSide_sub hRt hm.1 h2)
      subst e
      have hn : |popOf pop (sub T root par u) - ideal| ≤ ideal * eps := (near_comm ..).2 hnear
      obtain ⟨c, hc, e⟩ := hcf.complete u (Finset.mem_erase.2 ⟨h2, hm.1⟩) (by
        unfold memoBal
        simp only [if_true]
        exact Or.inl hn)
      refine ⟨c, hc, ?_⟩
      rw [(hcf.sound c hc).2.2.2, e]
      unfold memoSide
      exact if_pos ⟨rfl, hn⟩
    · have e := hA.unique (isSide_compl hRt hm.2 h2)
      subst e
      exact absurd (Finset.mem_sdiff.2 ⟨hRt.root_mem, hrs v hm.2 h2⟩) hrA

theorem draws_memoFromOne (N fuel : ℕ) (h : PopGraph V) (root : V) : ∃ k, Draws k (memoFromOne (uniRand N) fuel h root) := by
  unfold memoFromOne
  rcases hp : calcPops fuel (successors h.graph root) root h.population with e | pops
  · exact ⟨0, .done (.error e) (fun t => rfl)⟩
  · exact ⟨_, draws_memoLoop N fuel h (predecessors h.graph root) (successors h.graph root) true pops.entries []⟩

theorem memoBalance_one_eq (R : Rand S) (h : PopGraph V) : memoBalance R true h =
    (R.choice ((iter h.graph.nodes).filter (fun x => h.graph.degree x > 1)) >>= memoFromOne R (2 * h.graph.nodes.card) h) := rfl

/-- for every root of degree at least two the algorithm can return the one-sided cuts seen from that root -/
theorem can_memo_one {N : ℕ} {T : Graph V} (hT : IsTree T) (hN : T.nodes.card ≤ N) (wt : V → V → Option ℚ) (pop : V → ℚ) (ideal eps : ℚ)
    {root : V} (hr : root ∈ T.nodes) (hd : 1 < T.degree root) :
    ∃ cuts, Can N (memoBalance (uniRand N) true (PopGraph.init T.nodes T wt pop ideal eps)) cuts ∧ cuts.length ≤ T.nodes.card ∧
      ∀ u v A, T.Adj u v → IsSide T u v A → root ∉ A → Near ideal eps (popOf pop A) → ∃ c ∈ cuts, c.subset = A := by
  have hpos : 0 < T.nodes.card := Finset.card_pos.2 ⟨root, hr⟩
  have hN0 : 0 < N := lt_of_lt_of_le hpos hN
  obtain ⟨k, hk⟩ := draws_memoFromOne N (2 * T.nodes.card) (PopGraph.init T.nodes T wt pop ideal eps) root
  obtain ⟨cuts, hc⟩ := Can.of_draws hN0 hk (fun w => by
    obtain ⟨cuts, w', h, -⟩ := memoFromOne_spec hT (uniRand N) (uniRand_valid hN0) wt pop ideal eps le_rfl hr w
    exact ⟨cuts, w', h⟩)
  obtain ⟨t0, -, ht⟩ := id hc
  obtain ⟨cuts', w', h1, h2, h4⟩ := memoFromOne_spec hT (uniRand N) (uniRand_valid hN0) wt pop ideal eps le_rfl hr (t0 ++ [])
  rw [ht] at h1
  cases h1
  refine ⟨cuts, ?_, h2, h4⟩
  rw [memoBalance_one_eq]
  refine (can_choice ?_ ?_).bind hc
  · refine le_trans (List.length_filter_le _ _) ?_
    rw [length_iter]
    exact hN
  · rw [List.mem_filter, mem_iter, decide_eq_true_eq]
    exact ⟨hr, hd⟩

/-- `bipartition_tree` with a one-sided cut can return every balanced connected set with a connected complement of at least two nodes -/
theorem can_bipartition_one {A' : Type} [DecidableEq A'] {N : ℕ} (attr : String → V → Option A') (nodeRepeats : ℕ) (maxAttempts : Option ℕ)
    (hmax : maxAttempts ≠ some 0) (allow : Bool) (fuel : ℕ) (hf : 0 < fuel) {G : Graph V} (hG : G.WF) {A B : Finset V} (hAB : Disjoint A B)
    (hA : A ⊆ G.nodes) (hB : B ⊆ G.nodes) (cA : ConnectedOn G A) (cB : ConnectedOn G B) (hB2 : 2 ≤ B.card) (hconn : ConnectedOn G (B ∪ A))
    (hN : (B ∪ A).card ≤ N) {pop : V → ℚ} {target eps : ℚ} (pA : Near target eps (popOf pop A)) :
    Can N (bipMethod (uniRand N) (randomSpanningTree (uniRand N) attr none) nodeRepeats maxAttempts attr none allow fuel pop
      (G.subgraph (B ∪ A)) target eps true) (some A) := by
  classical
  obtain ⟨E, hE, y, x, hy, hx, -, sA, hadj, hdeg⟩ := join_sides hG hAB.symm hB hA cB cA hB2 hconn
  have hU : B ∪ A ⊆ G.nodes := Finset.union_subset hB hA
  have hn := subgraph_nodes hU
  have hN2 : 2 ≤ N := by
    have := Finset.card_le_card (Finset.subset_union_left (s₁ := B) (s₂ := A))
    omega
  obtain ⟨t, htg, ht⟩ := can_randomSpanningTree hN2 attr (hG.subgraph (B ∪ A)) hE
  rw [hn] at htg
  have hT := ((mem_treeSets hU).1 hE).2
  obtain ⟨cuts, hc1, hc2, hc3⟩ := can_memo_one (N := N) hT hN t.weight pop target eps (Finset.mem_union_left _ hy) hdeg
  obtain ⟨c, hc, hcA⟩ := hc3 x y A hadj.symm sA (fun h => Finset.disjoint_left.1 hAB h hy) pA
  have hstep : Can N (bipStep ⟨randomSpanningTree (uniRand N) attr none, memoBalance (uniRand N) true, nodeRepeats, maxAttempts⟩
      (G.subgraph (B ∪ A)) pop target eps t 0)
      (t, 0, PopGraph.init (B ∪ A) ⟨B ∪ A, E⟩ t.weight pop target eps, cuts) := by
    unfold bipStep
    refine Can.bind (x := (t, 0)) ?_ ?_
    · split_ifs
      · exact ht.bind (can_pure _ _)
      · exact can_pure _ _
    · simp only [hn, htg]
      exact hc1.bind (can_pure _ _)
  have hloop : Can N (bipLoop ⟨randomSpanningTree (uniRand N) attr none, memoBalance (uniRand N) true, nodeRepeats, maxAttempts⟩
      (fun _ => regionChoice (uniRand N) attr none) allow (G.subgraph (B ∪ A)) pop target eps fuel t 0 0) A := by
    obtain ⟨n, rfl⟩ : ∃ n, fuel = n + 1 := ⟨fuel - 1, by omega⟩
    unfold bipLoop
    have hatt : attemptsLeft maxAttempts 0 = true := by
      unfold attemptsLeft
      rcases maxAttempts with _ | m
      · rfl
      · have : m ≠ 0 := fun h => hmax (by rw [h])
        simp; omega
    simp only [hatt, if_true]
    refine hstep.bind ?_
    simp only
    rw [if_pos (List.ne_nil_of_mem hc), ← hcA]
    refine Can.bind (x := c) ?_ (can_pure _ _)
    exact can_choice (hc2.trans hN) hc
  unfold bipMethod bipartitionTree
  exact (ht.bind hloop).bind (can_pure _ _)

/-! ### One district after the other -/

/-- the window asked for in each round is exactly: within the bounds, and the error so far stays within `eps * target` -/
theorem debtTarget_iff {target eps debt : ℚ} (ht : 0 < target) (he : 0 ≤ eps) (he1 : eps < 1) (hd : |debt| ≤ eps * target) :
    ∃ nt ne, debtTarget target eps debt = .ok (nt, ne) ∧
      ∀ x, Near nt ne x ↔ PopOk target eps x ∧ |debt + (x - target)| ≤ eps * target := by
  rw [abs_le] at hd
  have het : eps * target < target := by nlinarith
  unfold debtTarget
  simp only
  rcases le_total 0 debt with h0 | h0
  · have e1 : max (target * (1 - eps)) (target * (1 - eps) - debt) = target * (1 - eps) := max_eq_left (by linarith)
    have e2 : min (target * (1 + eps)) (target * (1 + eps) - debt) = target * (1 + eps) - debt := min_eq_right (by linarith)
    rw [e1, e2]
    have hpos : 0 < (target * (1 - eps) + (target * (1 + eps) - debt)) / 2 := by nlinarith
    rw [if_neg (by linarith)]
    refine ⟨_, _, rfl, ?_⟩
    intro x
    unfold Near PopOk
    rw [half_cancel hpos, abs_le, abs_le]
    constructor
    · rintro ⟨h1, h2⟩
      refine ⟨⟨by linarith, by linarith⟩, by nlinarith, by nlinarith⟩
    · rintro ⟨⟨h1, h2⟩, h3, h4⟩
      constructor <;> linarith
  · have e1 : max (target * (1 - eps)) (target * (1 - eps) - debt) = target * (1 - eps) - debt := max_eq_right (by linarith)
    have e2 : min (target * (1 + eps)) (target * (1 + eps) - debt) = target * (1 + eps) := min_eq_left (by linarith)
    rw [e1, e2]
    have hpos : 0 < (target * (1 - eps) - debt + target * (1 + eps)) / 2 := by nlinarith
    rw [if_neg (by linarith)]
    refine ⟨_, _, rfl, ?_⟩
    intro x
    unfold Near PopOk
    rw [half_cancel hpos, abs_le, abs_le]
    constructor
    · rintro ⟨h1, h2⟩
      refine ⟨⟨by linarith, by linarith⟩, by nlinarith, by nlinarith⟩
    · rintro ⟨⟨h1, h2⟩, h3, h4⟩
      constructor <;> linarith

/-- the districts of a plan, given by a function -/
def cellOf (R : Finset V) (g : V → Option P) (p : P) : Finset V := R.filter (fun v => g v = some p)

/-- Cutting off one district of `g` after the other from the nodes `R` works, with the error `debt` so far. -/
def Peels (G : Graph V) (pop : V → ℚ) (target eps : ℚ) (g : V → Option P) : List P → Finset V → ℚ → Prop
  | [], _, _ => False
  | [_], _, _ => False
  | [p, q], R, _ => R = cellOf R g p ∪ cellOf R g q ∧ ConnectedOn G (cellOf R g p) ∧ ConnectedOn G (cellOf R g q) ∧
      PopOk target eps (popOf pop (cellOf R g p)) ∧ PopOk target eps (popOf pop (cellOf R g q)) ∧ 2 ≤ (cellOf R g p).card
  | p :: q :: r :: rest, R, debt => ConnectedOn G (cellOf R g p) ∧ ConnectedOn G (R \ cellOf R g p) ∧ PopOk target eps (popOf pop (cellOf R g p)) ∧
      |debt + (popOf pop (cellOf R g p) - target)| ≤ eps * target ∧
      Peels G pop target eps g (q :: r :: rest) (R \ cellOf R g p) (debt + (popOf pop (cellOf R g p) - target))

theorem cell_sdiff {R : Finset V} {g : V → Option P} {p x : P} (h : x ≠ p) : cellOf (R \ cellOf R g p) g x = cellOf R g x := by
  ext v
  simp only [cellOf, Finset.mem_filter, Finset.mem_sdiff, not_and]
  constructor
  · rintro ⟨⟨h1, -⟩, h2⟩; exact ⟨h1, h2⟩
  · rintro ⟨h1, h2⟩
    exact ⟨⟨h1, fun _ h3 => h (Option.some.inj (h2.symm.trans h3))⟩, h2⟩

theorem Peels.two_le {G : Graph V} {pop : V → ℚ} {target eps : ℚ} {g : V → Option P} : ∀ {parts : List P} {R : Finset V} {debt : ℚ},
    parts.Nodup → Peels G pop target eps g parts R debt → 2 ≤ R.card
  | [], _, _, _, h => h.elim
  | [_], _, _, _, h => h.elim
  | [p, q], R, _, hnd, h => by
    exact h.2.2.2.2.2.trans (Finset.card_le_card (Finset.filter_subset _ _))
  | p :: q :: r :: rest, R, debt, hnd, h => by
    have h1 := Peels.two_le (List.nodup_cons.1 hnd).2 h.2.2.2.2
    exact h1.trans (Finset.card_le_card Finset.sdiff_subset)

variable {A' : Type} [DecidableEq A'] {N : ℕ} (attr : String → V → Option A') (nodeRepeats : ℕ) (maxAttempts : Option ℕ) (allow : Bool) (fuel : ℕ)

/-- `recursive_tree_part` can follow every plan for which the cuts work -/
theorem can_recursiveLoop (hmax : maxAttempts ≠ some 0) (hf : 0 < fuel) {G : Graph V} (hG : G.WF) (hN : G.nodes.card ≤ N) {pop : V → ℚ} {target eps : ℚ}
    (ht : 0 < target) (he : 0 ≤ eps) (he1 : eps < 1) {g : V → Option P} : ∀ {parts : List P} {R : Finset V} {debt : ℚ} (flips : Dict V P),
      parts.Nodup → R ⊆ G.nodes → ConnectedOn G R → |debt| ≤ eps * target → Peels G pop target eps g parts R debt →
      ∃ f, Can N (recursiveLoop (bipMethod (uniRand N) (randomSpanningTree (uniRand N) attr none) nodeRepeats maxAttempts attr none allow fuel pop)
        G pop target eps parts flips R debt) f ∧ ∀ v, f.get? v = if v ∈ R then g v else flips.get? v
  | [], _, _, _, _, _, _, _, h => h.elim
  | [_], _, _, _, _, _, _, _, h => h.elim
  | [p, q], R, debt, flips, hnd, hR, hc, hd, h => by
    obtain ⟨hU, cA, cB, pA, pB, hA2⟩ := h
    have hpq : p ≠ q := by simpa using hnd
    set A := cellOf R g p with hA
    set B := cellOf R g q with hB
    have hAB : Disjoint A B := by
      rw [Finset.disjoint_left]
      intro v h1 h2
      exact hpq (Option.some.inj ((Finset.mem_filter.1 h1).2.symm.trans (Finset.mem_filter.1 h2).2))
    have hAR : A ⊆ R := Finset.filter_subset _ _
    have hBR : B ⊆ R := Finset.filter_subset _ _
    have hm := can_bipartition (N := N) attr nodeRepeats maxAttempts hmax allow fuel hf hG hAB (hAR.trans hR) (hBR.trans hR) cA cB hA2
      (hU ▸ hc) ((Finset.card_le_card (hU ▸ hR)).trans hN) (pop := pop) (near_iff_popOk.2 pA) (near_iff_popOk.2 pB)
    rw [← hU] at hm
    have hdiff : R \ A = B := by rw [hU, Finset.union_sdiff_left, Finset.sdiff_eq_self_of_disjoint hAB.symm]
    obtain ⟨f1, e1, -, g1⟩ := (assignPart_cases pop target eps flips A p).resolve_right (fun k => k.2 pA)
    obtain ⟨f, e2, -, g2⟩ := (assignPart_cases pop target eps f1 B q).resolve_right (fun k => k.2 pB)
    refine ⟨f, ?_, fun v => ?_⟩
    · unfold recursiveLoop lastTwo
      refine hm.bind (Can.bind (can_lift N (x := A) rfl) (Can.bind (can_lift N e1) ?_))
      simp only [hdiff]
      exact (can_lift N e2).bind (can_pure _ _)
    · rw [g2, g1]
      by_cases hv : v ∈ R
      · rw [if_pos hv]
        by_cases hvB : v ∈ B
        · rw [if_pos hvB, (Finset.mem_filter.1 hvB).2]
        · have hvA : v ∈ A := by
            rw [hU, Finset.mem_union] at hv
            tauto
          rw [if_neg hvB, if_pos hvA, (Finset.mem_filter.1 hvA).2]
      · rw [if_neg hv, if_neg (fun h => hv (hBR h)), if_neg (fun h => hv (hAR h))]
  | p :: q :: r :: rest, R, debt, flips, hnd, hR, hc, hd, h => by
    obtain ⟨cA, cB, pA, hdebt, hrest⟩ := h
    set A := cellOf R g p with hA
    have hAR : A ⊆ R := Finset.filter_subset _ _
    have hB2 : 2 ≤ (R \ A).card := hrest.two_le (List.nodup_cons.1 hnd).2
    obtain ⟨nt, ne, hdt, hw⟩ := debtTarget_iff ht he he1 hd
    have hUA : R \ A ∪ A = R := Finset.sdiff_union_of_subset hAR
    have hm := can_bipartition_one (N := N) attr nodeRepeats maxAttempts hmax allow fuel hf hG (Finset.disjoint_sdiff (s := A) (t := R))
      (hAR.trans hR) (Finset.sdiff_subset.trans hR) cA cB hB2 (by rw [hUA]; exact hc) (by rw [hUA]; exact (Finset.card_le_card hR).trans hN)
      (pop := pop) ((hw _).2 ⟨pA, hdebt⟩)
    rw [hUA] at hm
    obtain ⟨f1, e1, -, g1⟩ := (assignPart_cases pop target eps flips A p).resolve_right (fun k => k.2 pA)
    obtain ⟨f, k1, k2⟩ := can_recursiveLoop hmax hf hG hN ht he he1 f1 (List.nodup_cons.1 hnd).2 (Finset.sdiff_subset.trans hR) cB hdebt hrest
    refine ⟨f, ?_, fun v => ?_⟩
    · unfold recursiveLoop
      refine Can.bind (can_lift N hdt) ?_
      exact hm.bind (Can.bind (can_lift N (x := A) rfl) (Can.bind (can_lift N e1) k1))
    · rw [k2, g1]
      by_cases hv : v ∈ R
      · rw [if_pos hv]
        by_cases hvA : v ∈ A
        · rw [if_neg (by simp [hvA]), if_pos hvA, (Finset.mem_filter.1 hvA).2]
        · rw [if_pos (by simp [hv, hvA])]
      · rw [if_neg (by simp [hv]), if_neg hv, if_neg (fun h => hv (hAR h))]

/-- whatever `recursive_tree_part` returns was cut off one district after the other -/
theorem recursiveLoop_peels {Rd : Rand S} (hRd : Rd.Valid) {spanFn : Graph V → M S (WTree V)} (hspan : SpanOk spanFn) {surcharge : Option (Dict String ℚ)}
    {G : Graph V} (hG : G.WF) {pop : V → ℚ} {target eps : ℚ} (ht : 0 < target) (he : 0 ≤ eps) (he1 : eps < 1) :
    ∀ {parts : List P} {R : Finset V} {debt : ℚ} {flips f : Dict V P} {w w' : S}, parts.Nodup → R ⊆ G.nodes → ConnectedOn G R →
      |debt| ≤ eps * target →
      recursiveLoop (bipMethod Rd spanFn nodeRepeats maxAttempts attr surcharge allow fuel pop) G pop target eps parts flips R debt w = (.ok f, w') →
      Peels G pop target eps f.get? parts R debt
  | [], _, _, _, _, _, _, _, _, _, _, h => by cases h
  | [_], _, _, _, _, _, _, _, _, _, _, h => by cases h
  | [p, q], R, debt, flips, f, w, w', hnd, hR, hc, hd, h => by
    obtain ⟨g1, g2, g3⟩ := bipMethod_good Rd hRd spanFn hspan nodeRepeats maxAttempts attr surcharge allow fuel pop
    have hpq : p ≠ q := by simpa using hnd
    unfold recursiveLoop at h
    have hsp := lastTwo_split (g3 G hG) hG hR hc h
    have hA2 : 2 ≤ (cellOf R f.get? p).card := by
      unfold lastTwo at h
      obtain ⟨r, w1, h1, h⟩ := M.bind_eq_ok h
      obtain ⟨A, w2, h2, h⟩ := M.bind_eq_ok h
      obtain ⟨⟨f1, x1⟩, w3, h3, h⟩ := M.bind_eq_ok h
      obtain ⟨⟨f2, x2⟩, w4, h4, h⟩ := M.bind_eq_ok h
      cases h
      have hr := notNone_eq_ok (M.lift_eq_ok h2).1
      subst hr
      obtain ⟨_, k1, k2⟩ := assignPart_ok (M.lift_eq_ok h3).1
      obtain ⟨_, k3, k4⟩ := assignPart_ok (M.lift_eq_ok h4).1
      have hA : A ⊆ R := (g3 G hG _ _ _ _ _ _ _ hR hc h1).1
      have hcard := bip_two_nodes hRd hspan nodeRepeats maxAttempts attr surcharge allow fuel (hG.subgraph R)
        ((connectedOn_subgraph hR).2 hc) h1
      refine hcard.trans (Finset.card_le_card fun v hv => Finset.mem_filter.2 ⟨hA hv, ?_⟩)
      rw [k4, k2, if_neg (by simp [hv]), if_pos hv]
    refine ⟨?_, hsp.conn ⟨g1, hc⟩ hnd p (by simp), hsp.conn ⟨g1, hc⟩ hnd q (by simp), hsp.pop hnd p (by simp), hsp.pop hnd q (by simp), hA2⟩
    ext v
    rw [Finset.mem_union]
    constructor
    · intro hv
      obtain ⟨x, hx, hxv⟩ := hsp.cover v hv
      simp only [List.mem_cons, List.not_mem_nil, or_false] at hx
      rcases hx with rfl | rfl
      · exact .inl (Finset.mem_filter.2 ⟨hv, hxv⟩)
      · exact .inr (Finset.mem_filter.2 ⟨hv, hxv⟩)
    · rintro (hv | hv) <;> exact (Finset.mem_filter.1 hv).1
  | p :: q :: r :: rest, R, debt, flips, f, w, w', hnd, hR, hc, hd, h => by
    obtain ⟨m1, m2, m3⟩ := bipMethod_good Rd hRd spanFn hspan nodeRepeats maxAttempts attr surcharge allow fuel pop
    obtain ⟨nt, ne, hdt, hw⟩ := debtTarget_iff ht he he1 hd
    unfold recursiveLoop at h
    obtain ⟨⟨nt', ne'⟩, w0, h0, h⟩ := M.bind_eq_ok h
    have h0' := (M.lift_eq_ok h0).1
    rw [hdt] at h0'
    cases h0'
    obtain ⟨x, w1, h1, h⟩ := M.bind_eq_ok h
    obtain ⟨A, w2, h2, h⟩ := M.bind_eq_ok h
    obtain ⟨⟨f1, x1⟩, w3, h3, h⟩ := M.bind_eq_ok h
    have hr := notNone_eq_ok (M.lift_eq_ok h2).1
    subst hr
    obtain ⟨j1, j2, j3⟩ := assignPart_ok (M.lift_eq_ok h3).1
    simp only at h
    have hA : A ⊆ R := (m3 G hG _ _ _ _ _ _ _ hR hc h1).1
    have hcB : ConnectedOn G (R \ A) := (m3 G hG _ _ _ _ _ _ _ hR hc h1).2
    obtain ⟨hn, hcA⟩ := method_on_subgraph (G := G) hR (A := A)
    have hcA' : ConnectedOn G A := (hcA hA).1 (m1 _ _ _ _ _ _ _ (hG.subgraph R) ((connectedOn_subgraph hR).2 hc) h1).1
    have hnear := (m2 _ _ _ _ _ _ _ (hG.subgraph R) ((connectedOn_subgraph hR).2 hc) h1).1
    obtain ⟨hp, hdebt⟩ := (hw _).1 hnear
    have hx1 : x1 = popOf pop A := j1
    subst hx1
    have hsp := recursiveLoop_split (m3 G hG) hG _ _ _ _ _ _ _ (Finset.sdiff_subset.trans hR) hcB h
    have hcell : cellOf R f.get? p = A := by
      ext v
      simp only [cellOf, Finset.mem_filter]
      constructor
      · rintro ⟨hv, hvp⟩
        by_contra hvA
        obtain ⟨y, hy, hvy⟩ := hsp.cover v (Finset.mem_sdiff.2 ⟨hv, hvA⟩)
        rw [hvp] at hvy
        cases hvy
        exact (List.nodup_cons.1 hnd).1 hy
      · intro hv
        refine ⟨hA hv, ?_⟩
        rw [hsp.frame v (by simp [hv]), j3, if_pos hv]
    refine ⟨by rw [hcell]; exact hcA', by rw [hcell]; exact hcB, by rw [hcell]; exact hp, by rw [hcell]; exact hdebt, ?_⟩
    rw [hcell]
    exact recursiveLoop_peels hRd hspan hG ht he he1 (List.nodup_cons.1 hnd).2 (Finset.sdiff_subset.trans hR) hcB hdebt h

/-! ### In terms of the plan only -/

/-- the nodes with one of the labels `L` -/
def withLabels (R : Finset V) (g : V → Option P) (L : List P) : Finset V := R.filter (fun v => ∃ p ∈ L, g v = some p)

theorem mem_withLabels {R : Finset V} {g : V → Option P} {L : List P} {v : V} : v ∈ withLabels R g L ↔ v ∈ R ∧ ∃ p ∈ L, g v = some p := by
  unfold withLabels
  rw [Finset.mem_filter]

/-- What a plan has to satisfy to be a possible result, for the nodes `R` and the error `debt` so far.

* every node has one of the labels,
* every district is connected and has an admissible population,
* the nodes of the districts from the `k`-th on are connected,
* the deviations of the first `k` districts from the target add up to at most `eps * target`,
* the last district but one has two nodes. -/
structure ProducibleIn (G : Graph V) (pop : V → ℚ) (target eps : ℚ) (parts : List P) (g : V → Option P) (R : Finset V) (debt : ℚ) : Prop where
  many : 2 ≤ parts.length
  cover : ∀ v ∈ R, ∃ p ∈ parts, g v = some p
  conn : ∀ p ∈ parts, ConnectedOn G (cellOf R g p)
  pops : ∀ p ∈ parts, PopOk target eps (popOf pop (cellOf R g p))
  rest : ∀ k, k + 2 ≤ parts.length → ConnectedOn G (withLabels R g (parts.drop k))
  error : ∀ k, k + 2 ≤ parts.length → |debt + ((parts.take k).map (fun p => popOf pop (cellOf R g p) - target)).sum| ≤ eps * target
  two : ∀ p, parts[parts.length - 2]? = some p → 2 ≤ (cellOf R g p).card

theorem producibleIn_pair {G : Graph V} {pop : V → ℚ} {target eps : ℚ} {p q : P} {g : V → Option P} {R : Finset V} {debt : ℚ} :
    ProducibleIn G pop target eps [p, q] g R debt ↔
      ConnectedOn G R ∧ |debt| ≤ eps * target ∧ Peels G pop target eps g [p, q] R debt := by
  have hfil : (∀ v ∈ R, ∃ x ∈ [p, q], g v = some x) → withLabels R g ([p, q].drop 0) = R := fun h =>
    Finset.filter_true_of_mem h
  have hcov : (∀ v ∈ R, ∃ x ∈ [p, q], g v = some x) ↔ R = cellOf R g p ∪ cellOf R g q := by
    constructor
    · intro h
      ext v
      simp only [cellOf, Finset.mem_union, Finset.mem_filter]
      constructor
      · intro hv
        obtain ⟨x, hx, hxv⟩ := h v hv
        simp only [List.mem_cons, List.not_mem_nil, or_false] at hx
        rcases hx with rfl | rfl
        · exact .inl ⟨hv, hxv⟩
        · exact .inr ⟨hv, hxv⟩
      · rintro (h | h) <;> exact h.1
    · intro h v hv
      rw [h, Finset.mem_union] at hv
      rcases hv with hv | hv
      · exact ⟨p, by simp, (Finset.mem_filter.1 hv).2⟩
      · exact ⟨q, by simp, (Finset.mem_filter.1 hv).2⟩
  constructor
  · intro h
    refine ⟨?_, ?_, hcov.1 h.cover, h.conn p (by simp), h.conn q (by simp), h.pops p (by simp), h.pops q (by simp), h.two p rfl⟩
    · have := h.rest 0 (by simp)
      rwa [hfil h.cover] at this
    · simpa using h.error 0 (by simp)
  · rintro ⟨h1, h2, h3, h4, h5, h6, h7, h8⟩
    refine ⟨le_rfl, hcov.2 h3, by simp [h4, h5], by simp [h6, h7], ?_, ?_, ?_⟩
    · intro k hk
      obtain rfl : k = 0 := by simpa using hk
      rwa [hfil (hcov.2 h3)]
    · intro k hk
      obtain rfl : k = 0 := by simpa using hk
      simpa using h2
    · intro x hx
      obtain rfl : p = x := by simpa using hx
      exact h8

theorem producibleIn_cons {G : Graph V} {pop : V → ℚ} {target eps : ℚ} {p : P} {rest : List P} (hlen : 2 ≤ rest.length) (hp : p ∉ rest)
    {g : V → Option P} {R : Finset V} {debt : ℚ} :
    ProducibleIn G pop target eps (p :: rest) g R debt ↔
      ConnectedOn G R ∧ |debt| ≤ eps * target ∧ ConnectedOn G (cellOf R g p) ∧ PopOk target eps (popOf pop (cellOf R g p)) ∧
      ProducibleIn G pop target eps rest g (R \ cellOf R g p) (debt + (popOf pop (cellOf R g p) - target)) := by
  have hcell : ∀ x ∈ rest, cellOf (R \ cellOf R g p) g x = cellOf R g x := fun x hx => cell_sdiff (fun e => hp (e ▸ hx))
  have hfil0 : (∀ v ∈ R, ∃ x ∈ p :: rest, g v = some x) → withLabels R g ((p :: rest).drop 0) = R := fun h =>
    Finset.filter_true_of_mem h
  have hfil : ∀ k, withLabels (R \ cellOf R g p) g (rest.drop k) =
      withLabels R g ((p :: rest).drop (k + 1)) := by
    intro k
    ext v
    simp only [mem_withLabels, cellOf, Finset.mem_filter, Finset.mem_sdiff, List.drop_succ_cons, not_and]
    constructor
    · rintro ⟨⟨h1, -⟩, h2⟩
      exact ⟨h1, h2⟩
    · rintro ⟨h1, x, hx, h2⟩
      refine ⟨⟨h1, fun _ h3 => hp ?_⟩, x, hx, h2⟩
      rw [h2] at h3
      cases h3
      exact List.mem_of_mem_drop hx
  have hsum : ∀ k, debt + (popOf pop (cellOf R g p) - target) + ((rest.take k).map (fun x => popOf pop (cellOf (R \ cellOf R g p) g x) - target)).sum =
      debt + (((p :: rest).take (k + 1)).map (fun x => popOf pop (cellOf R g x) - target)).sum := by
    intro k
    rw [List.take_succ_cons, List.map_cons, List.sum_cons, add_assoc]
    congr 3
    refine List.map_congr_left (fun x hx => ?_)
    rw [hcell x (List.mem_of_mem_take hx)]
  have hget : ∀ x, (p :: rest)[(p :: rest).length - 2]? = some x ↔ rest[rest.length - 2]? = some x := by
    intro x
    have : (p :: rest).length - 2 = (rest.length - 2) + 1 := by simp only [List.length_cons]; omega
    rw [this, List.getElem?_cons_succ]
  constructor
  · intro h
    refine ⟨?_, ?_, h.conn p (by simp), h.pops p (by simp), hlen, ?_, ?_, ?_, ?_, ?_, ?_⟩
    · have := h.rest 0 (by simp; omega)
      rwa [hfil0 h.cover] at this
    · simpa using h.error 0 (by simp; omega)
    · intro v hv
      obtain ⟨hv1, hv2⟩ := Finset.mem_sdiff.1 hv
      obtain ⟨x, hx, hvx⟩ := h.cover v hv1
      rcases List.mem_cons.1 hx with rfl | hx
      · exact absurd (Finset.mem_filter.2 ⟨hv1, hvx⟩) hv2
      · exact ⟨x, hx, hvx⟩
    · intro x hx
      rw [hcell x hx]
      exact h.conn x (List.mem_cons_of_mem _ hx)
    · intro x hx
      rw [hcell x hx]
      exact h.pops x (List.mem_cons_of_mem _ hx)
    · intro k hk
      rw [hfil]
      exact h.rest (k + 1) (by simp only [List.length_cons]; omega)
    · intro k hk
      rw [hsum]
      exact h.error (k + 1) (by simp only [List.length_cons]; omega)
    · intro x hx
      rw [hcell x (List.mem_of_getElem? hx)]
      exact h.two x ((hget x).2 hx)
  · rintro ⟨h1, h2, h3, h4, h⟩
    have hcov : ∀ v ∈ R, ∃ x ∈ p :: rest, g v = some x := by
      intro v hv
      by_cases hvp : v ∈ cellOf R g p
      · exact ⟨p, by simp, (Finset.mem_filter.1 hvp).2⟩
      · obtain ⟨x, hx, hvx⟩ := h.cover v (Finset.mem_sdiff.2 ⟨hv, hvp⟩)
        exact ⟨x, List.mem_cons_of_mem _ hx, hvx⟩
    refine ⟨by simp only [List.length_cons]; omega, hcov, ?_, ?_, ?_, ?_, ?_⟩
    · intro x hx
      rcases List.mem_cons.1 hx with rfl | hx
      · exact h3
      · rw [← hcell x hx]; exact h.conn x hx
    · intro x hx
      rcases List.mem_cons.1 hx with rfl | hx
      · exact h4
      · rw [← hcell x hx]; exact h.pops x hx
    · intro k hk
      rcases k with _ | k
      · rwa [hfil0 hcov]
      · rw [← hfil]
        exact h.rest k (by simp only [List.length_cons] at hk; omega)
    · intro k hk
      rcases k with _ | k
      · simpa using h2
      · rw [← hsum]
        exact h.error k (by simp only [List.length_cons] at hk; omega)
    · intro x hx
      rw [hget] at hx
      rw [← hcell x (List.mem_of_getElem? hx)]
      exact h.two x hx

theorem producibleIn_iff {G : Graph V} {pop : V → ℚ} {target eps : ℚ} {g : V → Option P} : ∀ {parts : List P} {R : Finset V} {debt : ℚ},
    parts.Nodup → (ProducibleIn G pop target eps parts g R debt ↔
      ConnectedOn G R ∧ |debt| ≤ eps * target ∧ Peels G pop target eps g parts R debt)
  | [], _, _, _ => ⟨fun h => absurd h.many (by simp), fun h => h.2.2.elim⟩
  | [_], _, _, _ => ⟨fun h => absurd h.many (by simp), fun h => h.2.2.elim⟩
  | [_, _], _, _, _ => producibleIn_pair
  | p :: q :: r :: rest, R, debt, hnd => by
    rw [producibleIn_cons (by simp) (List.nodup_cons.1 hnd).1, producibleIn_iff (List.nodup_cons.1 hnd).2]
    show _ ↔ _ ∧ _ ∧ (_ ∧ _ ∧ _ ∧ _ ∧ Peels G pop target eps g (q :: r :: rest) _ _)
    tauto

/-- `g` is a possible result of `recursive_tree_part` on `G` with these labels. -/
def Producible (G : Graph V) (pop : V → ℚ) (target eps : ℚ) (parts : List P) (g : V → Option P) : Prop :=
  ProducibleIn G pop target eps parts g G.nodes 0

/-- **C100.**  `recursive_tree_part` with its default method can return a plan exactly if, in the order of the labels, cutting off one
district after the other leaves connected remainders, the districts are connected with admissible populations, the deviations of the
districts cut off so far never add up to more than the tolerance of one district, and the last district but one has two nodes. -/
theorem C100_possible_results (hmax : maxAttempts ≠ some 0) (hf : 0 < fuel) {G : Graph V} (hG : G.WF) (hc : ConnectedOn G G.nodes)
    (hN : G.nodes.card ≤ N) (hN0 : 0 < N) {pop : V → ℚ} {target eps : ℚ} (ht : 0 < target) (he : 0 ≤ eps) (he1 : eps < 1) {parts : List P} (hnd : parts.Nodup)
    (g : V → Option P) :
    (∃ f, Can N (recursiveTreePart (bipMethod (uniRand N) (randomSpanningTree (uniRand N) attr none) nodeRepeats maxAttempts attr none allow fuel pop)
        G parts pop target eps) f ∧ ∀ v, f.get? v = g v) ↔
      Producible G pop target eps parts g ∧ ∀ v ∉ G.nodes, g v = none := by
  have h0 : |(0 : ℚ)| ≤ eps * target := by rw [abs_zero]; positivity
  constructor
  · rintro ⟨f, ⟨t, -, htape⟩, hfg⟩
    obtain rfl : f.get? = g := funext hfg
    have hrun := htape []
    obtain ⟨-, -, g3⟩ := bipMethod_good (uniRand N) (uniRand_valid hN0) _ (spanOk_random (uniRand_valid hN0) attr none) nodeRepeats maxAttempts attr none allow fuel pop
    refine ⟨(producibleIn_iff hnd).2 ⟨hc, h0, ?_⟩, fun v hv => ?_⟩
    · exact recursiveLoop_peels attr nodeRepeats maxAttempts allow fuel (uniRand_valid hN0) (spanOk_random (uniRand_valid hN0) attr none) hG ht he he1 hnd subset_rfl hc h0 hrun
    · rw [(recursiveLoop_split (g3 G hG) hG _ _ _ _ _ _ _ subset_rfl hc hrun).frame v hv]
      rfl
  · rintro ⟨h, hout⟩
    obtain ⟨f, hcan, hfg⟩ := can_recursiveLoop attr nodeRepeats maxAttempts allow fuel hmax hf hG hN ht he he1 (g := g) Dict.empty hnd subset_rfl hc h0
      ((producibleIn_iff hnd).1 h).2.2
    refine ⟨f, hcan, fun v => ?_⟩
    rw [hfg]
    split_ifs with hv
    · rfl
    · exact (hout v hv).symm

/-- the plans of `Producible` are returned with positive probability -/
theorem C100_positive_probability (hmax : maxAttempts ≠ some 0) (hf : 0 < fuel) {G : Graph V} (hG : G.WF) (hc : ConnectedOn G G.nodes)
    (hN : G.nodes.card ≤ N) (hN0 : 0 < N) {pop : V → ℚ} {target eps : ℚ} (ht : 0 < target) (he : 0 ≤ eps) (he1 : eps < 1) {parts : List P} (hnd : parts.Nodup)
    {g : V → Option P} (hg : Producible G pop target eps parts g) (hout : ∀ v ∉ G.nodes, g v = none) :
    ∃ f : Dict V P, (∀ v, f.get? v = g v) ∧ ∃ L0, ∀ L, L0 ≤ L → ∀ [DecidablePred (fun r : Py (Dict V P) => r = .ok f)],
      0 < prob N L (recursiveTreePart (bipMethod (uniRand N) (randomSpanningTree (uniRand N) attr none) nodeRepeats maxAttempts attr none allow fuel pop)
        G parts pop target eps) (fun r => r = .ok f) := by
  classical
  obtain ⟨f, h1, h2⟩ := (C100_possible_results attr nodeRepeats maxAttempts allow fuel hmax hf hG hc hN hN0 ht he he1 hnd g).2 ⟨hg, hout⟩
  obtain ⟨L0, h⟩ := h1.prob_pos hN0
  refine ⟨f, h2, L0, fun L hL _ => ?_⟩
  convert h L hL

/-! ### A line of districts -/

/-- the nodes `0, …, n-1` in a line -/
def lineGraph (n : ℕ) : Graph ℕ := ⟨Finset.range n, (Finset.range (n - 1)).image (fun i => (i, i + 1))⟩

theorem lineGraph_adj {n u v : ℕ} : (lineGraph n).Adj u v ↔ (v = u + 1 ∧ v < n) ∨ (u = v + 1 ∧ u < n) := by
  unfold lineGraph Graph.Adj
  simp only [Finset.mem_image, Finset.mem_range, Prod.mk.injEq]
  constructor
  · rintro (⟨i, h1, rfl, rfl⟩ | ⟨i, h1, rfl, rfl⟩)
    · left; omega
    · right; omega
  · rintro (⟨h1, h2⟩ | ⟨h1, h2⟩)
    · exact .inl ⟨u, by omega, rfl, h1.symm⟩
    · exact .inr ⟨v, by omega, rfl, h1.symm⟩

theorem lineGraph_wf (n : ℕ) : (lineGraph n).WF where
  fst_mem := by
    intro e he
    simp only [lineGraph, Finset.mem_image, Finset.mem_range] at he ⊢
    obtain ⟨i, h1, rfl⟩ := he
    show i < n
    omega
  snd_mem := by
    intro e he
    simp only [lineGraph, Finset.mem_image, Finset.mem_range] at he ⊢
    obtain ⟨i, h1, rfl⟩ := he
    show i + 1 < n
    omega
  asymm := by
    intro e he _
    simp only [lineGraph, Finset.mem_image, Finset.mem_range] at he ⊢
    obtain ⟨i, h1, rfl⟩ := he
    rintro ⟨j, h2, h3⟩
    rw [Prod.mk.injEq] at h3
    omega

/-- a set of nodes without a gap is connected -/
theorem line_connected {n a b : ℕ} (hab : a < b) (hb : b ≤ n) {s : Finset ℕ} (hs : ∀ v, v ∈ s ↔ a ≤ v ∧ v < b) : ConnectedOn (lineGraph n) s := by
  have hreach : ∀ d, a + d < b → ReachIn (lineGraph n) s a (a + d) := by
    intro d
    induction d with
    | zero => intro _; exact Relation.ReflTransGen.refl
    | succ d ih =>
      intro h
      exact (ih (by omega)).tail ⟨lineGraph_adj.2 (.inl ⟨rfl, by omega⟩), (hs _).2 (by omega), (hs _).2 (by omega)⟩
  refine ⟨⟨a, (hs a).2 ⟨le_rfl, hab⟩⟩, fun u hu v hv => ?_⟩
  obtain ⟨hu1, hu2⟩ := (hs u).1 hu
  obtain ⟨hv1, hv2⟩ := (hs v).1 hv
  have h1 := hreach (u - a) (by omega)
  have h2 := hreach (v - a) (by omega)
  rw [Nat.add_sub_cancel' hu1] at h1
  rw [Nat.add_sub_cancel' hv1] at h2
  exact h1.symm.trans h2

/-- a set of nodes with a gap is not connected -/
theorem line_gap {n a m c : ℕ} {s : Finset ℕ} (ha : a ∈ s) (hc : c ∈ s) (hm : m ∉ s) (h1 : a < m) (h2 : m < c) : ¬ ConnectedOn (lineGraph n) s := by
  intro h
  have hr := h.2 a ha c hc
  have : ∀ v, ReachIn (lineGraph n) s a v → v < m := by
    intro v hv
    induction hv with
    | refl => exact h1
    | tail _ hstep ih =>
      obtain ⟨hadj, hx, hy⟩ := hstep
      have hne : ∀ z ∈ s, z ≠ m := fun z hz e => hm (e ▸ hz)
      have := hne _ hx
      have := hne _ hy
      rcases lineGraph_adj.1 hadj with h | h <;> omega
  exact absurd (this c hr) (by omega)

/-- the populations of the fourteen nodes -/
def humpPop (v : ℕ) : ℚ := ([6, 6, 5, 6, 4, 4, 4, 4, 4, 4, 5, 6, 6, 6].getD v 0 : ℕ)

/-- seven districts of two neighbouring nodes each -/
def humpPlan (v : ℕ) : Option ℕ := if v < 14 then some (v / 2) else none

theorem hump_cell {p : ℕ} (hp : p < 7) (v : ℕ) : v ∈ cellOf (lineGraph 14).nodes humpPlan p ↔ 2 * p ≤ v ∧ v < 2 * p + 2 := by
  unfold cellOf lineGraph humpPlan
  simp only [Finset.mem_filter, Finset.mem_range]
  constructor
  · rintro ⟨h1, h2⟩
    rw [if_pos h1, Option.some.injEq] at h2
    omega
  · intro h
    have h1 : v < 14 := by omega
    refine ⟨h1, ?_⟩
    rw [if_pos h1, Option.some.injEq]
    omega

theorem hump_connected {p : ℕ} (hp : p < 7) : ConnectedOn (lineGraph 14) (cellOf (lineGraph 14).nodes humpPlan p) :=
  line_connected (by omega) (by omega) (hump_cell hp)

/-- the population of a district, and what it is off the target -/
theorem hump_pops : ∀ p < 7, popOf humpPop (cellOf (lineGraph 14).nodes humpPlan p) = (([12, 11, 8, 8, 8, 11, 12].getD p 0 : ℕ) : ℚ) := by
  decide +kernel

/-- two districts cannot be cut off: the rest has a gap, or the deviations add up to too much -/
theorem hump_start : ∀ p : Fin 7, ∀ q : Fin 7, p ≠ q →
    (0 < p.1 ∧ p.1 < 6) ∨ (p.1 = 0 ∧ 1 < q.1 ∧ q.1 < 6) ∨ (p.1 = 6 ∧ 0 < q.1 ∧ q.1 < 5) ∨
    22 < ([12, 11, 8, 8, 8, 11, 12] : List ℕ).getD p.1 0 + ([12, 11, 8, 8, 8, 11, 12] : List ℕ).getD q.1 0 := by
  decide +kernel

/-- no order of the labels makes the plan possible -/
theorem hump_not_producible {parts : List ℕ} (hnd : parts.Nodup) : ¬ Producible (lineGraph 14) humpPop 10 (1 / 5) parts humpPlan := by
  intro h
  have hlt : ∀ p ∈ parts, p < 7 := by
    intro p hp
    obtain ⟨v, hv⟩ := (h.conn p hp).1
    obtain ⟨h1, h2⟩ := Finset.mem_filter.1 hv
    have h1 : v < 14 := Finset.mem_range.1 h1
    unfold humpPlan at h2
    rw [if_pos h1, Option.some.injEq] at h2
    omega
  have hall : ∀ p < 7, p ∈ parts := by
    intro p hp
    obtain ⟨q, hq, e⟩ := h.cover (2 * p) (Finset.mem_range.2 (by omega))
    unfold humpPlan at e
    rw [if_pos (by omega), Option.some.injEq] at e
    have : q = p := by omega
    exact this ▸ hq
  have hlen : 7 ≤ parts.length := by
    have h1 : (Finset.range 7) ⊆ parts.toFinset := fun p hp => List.mem_toFinset.2 (hall p (Finset.mem_range.1 hp))
    have h2 := Finset.card_le_card h1
    rw [Finset.card_range] at h2
    exact h2.trans (List.toFinset_card_le _)
  rcases parts with _ | ⟨p, _ | ⟨q, rest⟩⟩
  · simp at hlen
  · simp at hlen
  have hp := hlt p (by simp)
  have hq := hlt q (by simp)
  have hpq : p ≠ q := fun e => (List.nodup_cons.1 hnd).1 (by simp [e])
  have hlab : ∀ v < 14, humpPlan v = some (v / 2) := fun v hv => if_pos hv
  have hmem1 : ∀ v < 14, v ∈ withLabels (lineGraph 14).nodes humpPlan ((p :: q :: rest).drop 1) ↔ v / 2 ≠ p := by
    intro v hv
    rw [mem_withLabels, hlab v hv]
    constructor
    · rintro ⟨-, x, hx, e⟩ rfl
      rw [Option.some.injEq] at e
      exact (List.nodup_cons.1 hnd).1 (e ▸ hx)
    · intro hne
      refine ⟨Finset.mem_range.2 hv, v / 2, ?_, rfl⟩
      rcases List.mem_cons.1 (hall (v / 2) (by omega)) with e | e
      · exact absurd e hne
      · exact e
  have hmem2 : ∀ v < 14, v ∈ withLabels (lineGraph 14).nodes humpPlan ((p :: q :: rest).drop 2) ↔ v / 2 ≠ p ∧ v / 2 ≠ q := by
    intro v hv
    rw [mem_withLabels, hlab v hv]
    constructor
    · rintro ⟨-, x, hx, e⟩
      rw [Option.some.injEq] at e
      rw [e]
      exact ⟨fun e' => (List.nodup_cons.1 hnd).1 (e' ▸ List.mem_cons_of_mem _ hx),
        fun e' => (List.nodup_cons.1 (List.nodup_cons.1 hnd).2).1 (e' ▸ hx)⟩
    · rintro ⟨hne, hne'⟩
      refine ⟨Finset.mem_range.2 hv, v / 2, ?_, rfl⟩
      rcases List.mem_cons.1 (hall (v / 2) (by omega)) with e | e
      · exact absurd e hne
      · rcases List.mem_cons.1 e with e | e
        · exact absurd e hne'
        · exact e
  have hr1 := h.rest 1 (by simp only [List.length_cons] at hlen ⊢; omega)
  have hr2 := h.rest 2 (by simp only [List.length_cons] at hlen ⊢; omega)
  have hst := hump_start ⟨p, hp⟩ ⟨q, hq⟩ (fun e => hpq (congrArg Fin.val e))
  simp only at hst
  rcases hst with h1 | h1 | h1 | h8
  · exact line_gap (a := 0) (m := 2 * p) (c := 13) ((hmem1 _ (by omega)).2 (by omega)) ((hmem1 _ (by omega)).2 (by omega))
      (fun k => (hmem1 _ (by omega)).1 k (by omega)) (by omega) (by omega) hr1
  · exact line_gap (a := 2) (m := 2 * q) (c := 13) ((hmem2 _ (by omega)).2 (by omega)) ((hmem2 _ (by omega)).2 (by omega))
      (fun k => ((hmem2 _ (by omega)).1 k).2 (by omega)) (by omega) (by omega) hr2
  · exact line_gap (a := 0) (m := 2 * q) (c := 11) ((hmem2 _ (by omega)).2 (by omega)) ((hmem2 _ (by omega)).2 (by omega))
      (fun k => ((hmem2 _ (by omega)).1 k).2 (by omega)) (by omega) (by omega) hr2
  · have herr := h.error 2 (by simp only [List.length_cons] at hlen ⊢; omega)
    simp only [List.take_succ_cons, List.take_zero, List.map_cons, List.map_nil, List.sum_cons, List.sum_nil, hump_pops p hp, hump_pops q hq] at herr
    rw [abs_le] at herr
    have h9 : (22 : ℚ) < (([12, 11, 8, 8, 8, 11, 12].getD p 0 : ℕ) : ℚ) + (([12, 11, 8, 8, 8, 11, 12].getD q 0 : ℕ) : ℚ) := by exact_mod_cast h8
    linarith [herr.2]

/-- **C100**: "every balanced contiguous plan is a possible result, for a suitable order of the labels" is false.  Seven districts along a
line, every one of them connected, with two nodes and within 20% of the ideal population; removing them from the left to the right leaves
connected remainders.  Whatever the order of the labels, `recursive_tree_part` never returns them, because after the first district the
running error is at its limit and both districts that could follow are too large (gerrychain/tree.py:1022-1030, 1049). -/
theorem C100_every_plan_violation :
    ((∑ v ∈ (lineGraph 14).nodes, humpPop v) = 7 * 10 ∧
      (∀ p < 7, ConnectedOn (lineGraph 14) (cellOf (lineGraph 14).nodes humpPlan p) ∧ PopOk 10 (1 / 5) (popOf humpPop (cellOf (lineGraph 14).nodes humpPlan p)) ∧
        2 ≤ (cellOf (lineGraph 14).nodes humpPlan p).card) ∧
      ∀ k < 7, ConnectedOn (lineGraph 14) (withLabels (lineGraph 14).nodes humpPlan ((List.range 7).drop k))) ∧
    ∀ (S : Type) (R : Rand S), R.Valid → ∀ (spanFn : Graph ℕ → M S (WTree ℕ)), SpanOk spanFn →
      ∀ (attr : String → ℕ → Option ℕ) (surcharge : Option (Dict String ℚ)) (nodeRepeats : ℕ) (maxAttempts : Option ℕ) (allow : Bool) (fuel : ℕ)
        (parts : List ℕ), parts.Nodup → ∀ (w w' : S) (f : Dict ℕ ℕ),
      recursiveTreePart (bipMethod R spanFn nodeRepeats maxAttempts attr surcharge allow fuel humpPop) (lineGraph 14) parts humpPop 10 (1 / 5) w = (.ok f, w') →
      f.get? ≠ humpPlan := by
  have hc : ConnectedOn (lineGraph 14) (lineGraph 14).nodes :=
    line_connected (a := 0) (b := 14) (by omega) le_rfl (fun v => by simp [lineGraph])
  refine ⟨⟨by decide +kernel, fun p hp => ⟨hump_connected hp, ?_, ?_⟩, fun k hk => ?_⟩, ?_⟩
  · rw [hump_pops p hp]
    revert p
    unfold PopOk
    decide +kernel
  · revert p
    decide +kernel
  · refine line_connected (a := 2 * k) (b := 14) (by omega) le_rfl (fun v => ?_)
    rw [mem_withLabels]
    constructor
    · rintro ⟨h1, x, hx, e⟩
      have h1 : v < 14 := Finset.mem_range.1 h1
      unfold humpPlan at e
      rw [if_pos h1, Option.some.injEq] at e
      rw [List.mem_iff_getElem] at hx
      obtain ⟨i, hi, rfl⟩ := hx
      rw [List.getElem_drop, List.getElem_range] at e
      omega
    · rintro ⟨h1, h2⟩
      refine ⟨Finset.mem_range.2 h2, v / 2, ?_, if_pos h2⟩
      rw [List.mem_iff_getElem]
      exact ⟨v / 2 - k, by rw [List.length_drop, List.length_range]; omega, by rw [List.getElem_drop, List.getElem_range]; omega⟩
  · intro S R hR spanFn hspan attr surcharge nodeRepeats maxAttempts allow fuel parts hnd w w' f h e
    have h0 : |(0 : ℚ)| ≤ (1 / 5) * 10 := by norm_num
    have := recursiveLoop_peels attr nodeRepeats maxAttempts allow fuel hR hspan (lineGraph_wf 14) (by norm_num) (by norm_num) (by norm_num) hnd
      subset_rfl hc h0 h
    rw [e] at this
    exact hump_not_producible hnd ((producibleIn_iff hnd).2 ⟨hc, h0, this⟩)

/-- three districts of two nodes each along a line of six -/
def thirds (v : ℕ) : Option ℕ := if v < 6 then some (v / 2) else none

theorem thirds_producible : Producible (lineGraph 6) (fun _ => 1) 2 0 [0, 1, 2] thirds where
  many := by decide
  cover := by decide
  conn := by
    intro p hp
    have hp3 : p < 3 := by revert hp; revert p; decide
    refine line_connected (a := 2 * p) (b := 2 * p + 2) (by omega) (by omega) (fun v => ?_)
    unfold cellOf thirds lineGraph
    simp only [Finset.mem_filter, Finset.mem_range]
    constructor
    · rintro ⟨h1, h2⟩
      rw [if_pos h1, Option.some.injEq] at h2
      omega
    · intro h
      have h1 : v < 6 := by omega
      refine ⟨h1, ?_⟩
      rw [if_pos h1, Option.some.injEq]
      omega
  pops := by
    unfold PopOk
    decide +kernel
  rest := by
    intro k hk
    have hk1 : k < 2 := by simpa using hk
    refine line_connected (a := 2 * k) (b := 6) (by omega) le_rfl (fun v => ?_)
    constructor
    · intro h
      have hv : v < 6 := Finset.mem_range.1 (mem_withLabels.1 h).1
      revert h
      interval_cases k <;> interval_cases v <;> decide
    · rintro ⟨h1, h2⟩
      revert h1
      interval_cases k <;> interval_cases v <;> decide
  error := by
    intro k hk
    have hk1 : k < 2 := by simpa using hk
    interval_cases k <;> decide +kernel
  two := by decide

/-- the hypotheses of `C100_possible_results` hold for these districts, and `recursive_tree_part` can return them -/
example : (lineGraph 6).WF ∧ ConnectedOn (lineGraph 6) (lineGraph 6).nodes ∧ Producible (lineGraph 6) (fun _ => 1) 2 0 [0, 1, 2] thirds ∧
    ∃ f, Can 6 (recursiveTreePart (bipMethod (uniRand 6) (randomSpanningTree (uniRand 6) (fun _ _ => (none : Option ℕ)) none) 1 (some 10)
      (fun _ _ => (none : Option ℕ)) none false 1 (fun _ => 1)) (lineGraph 6) [0, 1, 2] (fun _ => 1) 2 0) f ∧ ∀ v, f.get? v = thirds v := by
  have hc : ConnectedOn (lineGraph 6) (lineGraph 6).nodes := line_connected (a := 0) (b := 6) (by omega) le_rfl (fun v => by simp [lineGraph])
  refine ⟨lineGraph_wf 6, hc, thirds_producible, ?_⟩
  exact (C100_possible_results _ 1 (some 10) false 1 (by simp) one_pos (lineGraph_wf 6) hc (by simp [lineGraph]) (by norm_num) (by norm_num) le_rfl
    (by norm_num) (by decide) thirds).2 ⟨thirds_producible, fun v hv => if_neg (fun h => hv (Finset.mem_range.2 h))⟩

end GC

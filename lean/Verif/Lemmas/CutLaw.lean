import Verif.Lemmas.RecomSpan

/-!
# Which side of a balanced edge `bipartition_tree` returns, and how often

The root drawn by `find_balanced_edge_cuts_memoization` decides which side of a balanced edge is reported: with two-sided cuts the side that contains the
root, with one-sided cuts the side away from the root if it is balanced.
-/

set_option linter.unusedSectionVars false
set_option autoImplicit false

namespace GC

variable {V S : Type} [LinearOrder V]

/-- the populations of the two sides of an edge that is cut: both are admissible, or one of them if cuts are one-sided -/
def Admits (o : Bool) (ok : ℚ → Prop) (x y : ℚ) : Prop := if o = true then ok x ∨ ok y else ok x ∧ ok y

/-- removing the edge between `u` and `v` leaves two sides with such populations -/
def CutEdge (o : Bool) (ok : ℚ → Prop) (pop : V → ℚ) (T : Graph V) (u v : V) : Prop :=
  T.Adj u v ∧ ∃ A B, IsSide T u v A ∧ IsSide T v u B ∧ Admits o ok (popOf pop A) (popOf pop B)

/-- the side `A` of an edge with the sides `A` and `B` is the one returned if the root is `root` -/
def SidePicked (o : Bool) (ok : ℚ → Prop) (pop : V → ℚ) (root : V) (A B : Finset V) : Prop :=
  if o = true then ok (popOf pop A) ∧ (root ∉ A ∨ ¬ ok (popOf pop B)) else ok (popOf pop A) ∧ ok (popOf pop B) ∧ root ∈ A

/-- `find_balanced_edge_cuts_memoization` after the draw of the root (gerrychain/tree.py:376-424) -/
def memoFromRoot (R : Rand S) (o : Bool) (fuel : ℕ) (h : PopGraph V) (root : V) : M S (List (Cut V)) := do
  let pops ← M.lift (calcPops fuel (successors h.graph root) root h.population)
  memoLoop R fuel h (predecessors h.graph root) (successors h.graph root) o pops.entries []

theorem memoBalance_root_eq (R : Rand S) (o : Bool) (h : PopGraph V) : memoBalance R o h =
    (R.choice ((iter h.graph.nodes).filter (fun x => h.graph.degree x > 1)) >>= memoFromRoot R o (2 * h.graph.nodes.card) h) := rfl

/-- the cuts seen from a root -/
structure RootCuts (o : Bool) (ok : ℚ → Prop) (pop : V → ℚ) (T : Graph V) (root : V) (cuts : List (Cut V)) : Prop where
  nodup : (cuts.map (fun c => sortPair c.edge)).Nodup
  edge : ∀ c ∈ cuts, CutEdge o ok pop T c.edge.1 c.edge.2
  side : ∀ c ∈ cuts, ∃ u v, (c.edge = (u, v) ∨ c.edge = (v, u)) ∧ IsSide T u v c.subset ∧ SidePicked o ok pop root c.subset (T.nodes \ c.subset)
  all : ∀ u v, CutEdge o ok pop T u v → ∃ c ∈ cuts, c.edge = (u, v) ∨ c.edge = (v, u)

theorem Admits.symm {o : Bool} {ok : ℚ → Prop} {x y : ℚ} (h : Admits o ok x y) : Admits o ok y x := by
  unfold Admits at *
  split_ifs at * with ho
  · exact Or.symm h
  · exact And.symm h

theorem CutEdge.symm {o : Bool} {ok : ℚ → Prop} {pop : V → ℚ} {T : Graph V} {u v : V} (h : CutEdge o ok pop T u v) : CutEdge o ok pop T v u := by
  obtain ⟨h1, A, B, h2, h3, h4⟩ := h
  exact ⟨h1.symm, B, A, h3, h2, h4.symm⟩

theorem memoRoot_spec {T : Graph V} (hT : IsTree T) (R : Rand S) (hR : R.Valid) (wt : V → V → Option ℚ) (pop : V → ℚ) (ideal eps : ℚ) (o : Bool)
    {fuel : ℕ} (hf : 2 * T.nodes.card ≤ fuel) {root : V} (hr : root ∈ T.nodes) (w : S) :
    ∃ cuts w', memoFromRoot R o fuel (PopGraph.init T.nodes T wt pop ideal eps) root w = (.ok cuts, w') ∧
      RootCuts o (Near ideal eps) pop T root cuts := by
  obtain ⟨par, rank, hRt, hpred, hs'⟩ := bfs_rooted hT hr
  have hs : SuccOk T root par (successors T root) := ⟨hs'.1, hs'.2.1, hs'.2.2⟩
  obtain ⟨pops, p1, p2, p3, p4⟩ := calcPops_spec hRt hs pop hf
  have hkey : (pops.entries.map (·.1)).toFinset = T.nodes.erase root := by
    ext y; rw [List.mem_toFinset, p3]
  have hpos : 0 < T.nodes.card := Finset.card_pos.2 ⟨root, hr⟩
  obtain ⟨cuts, w2, h1, hcf⟩ := memoLoop_spec hRt R hR (PopGraph.init T.nodes T wt pop ideal eps)
    (pred := predecessors T root) hpred hs (fuel := fuel) (by omega) o pops.entries ∅ [] w p2 (by
      intro e he
      have := (p3 e.1).1 (List.mem_map.2 ⟨e, he, rfl⟩)
      rw [Finset.mem_erase] at this
      exact ⟨by simp, this.2, this.1, p4 e he⟩) ⟨by simp, by simp, by simp⟩
  rw [Finset.empty_union, hkey] at hcf
  have hrs : ∀ x, x ≠ root → root ∉ sub T root par x := by
    intro x hr hm
    rcases Relation.ReflTransGen.cases_head (mem_sub.1 hm).2 with e | ⟨c, ⟨_, h2, _⟩, _⟩
    · exact hr e.symm
    · exact h2 rfl
  have hbal : ∀ x, (memoBal T root par (PopGraph.init T.nodes T wt pop ideal eps) o x ↔
      Admits o (Near ideal eps) (popOf pop (sub T root par x)) (popOf pop (T.nodes \ sub T root par x))) := by
    intro x
    unfold memoBal Admits
    rw [popOf_compl, init_totPop, ← near_comm, ← near_comm]
    rfl
  refine ⟨cuts, w2, ?_, ⟨hcf.edges_nodup hRt, ?_, ?_, ?_⟩⟩
  · unfold memoFromRoot
    show ((M.lift (calcPops fuel (successors T root) root pop) : M S _) >>= _) w = _
    rw [p1]
    exact h1
  · intro c hc
    obtain ⟨a1, a2, a3, a4⟩ := hcf.sound c hc
    rw [Finset.mem_erase] at a1
    rw [a3]
    exact ⟨hRt.adj _ a1.2 a1.1, _, _, isSide_sub hRt a1.2 a1.1, isSide_compl hRt a1.2 a1.1, (hbal _).1 a2⟩
  · intro c hc
    obtain ⟨a1, a2, a3, a4⟩ := hcf.sound c hc
    rw [Finset.mem_erase] at a1
    have ec : c.edge = (c.edge.1, par c.edge.1) := Prod.ext rfl a3
    have hcomp : T.nodes \ (T.nodes \ sub T root par c.edge.1) = sub T root par c.edge.1 := Finset.sdiff_sdiff_eq_self sub_subset
    have hrt := hrs _ a1.1
    have ha := (hbal _).1 a2
    rw [a4]
    unfold memoSide
    split
    · rename_i hcond
      refine ⟨c.edge.1, par c.edge.1, .inl ec, isSide_sub hRt a1.2 a1.1, ?_⟩
      unfold SidePicked
      rw [if_pos hcond.1]
      exact ⟨(near_comm ..).1 hcond.2, .inl hrt⟩
    · rename_i hcond
      refine ⟨par c.edge.1, c.edge.1, .inr ec, isSide_compl hRt a1.2 a1.1, ?_⟩
      unfold SidePicked
      show if o = true then _ else _
      unfold Admits at ha
      rw [show (PopGraph.init T.nodes T wt pop ideal eps).graph.nodes = T.nodes from rfl, hcomp]
      split_ifs at ha ⊢ with ho
      · have hn : ¬ Near ideal eps (popOf pop (sub T root par c.edge.1)) := fun h' => hcond ⟨ho, (near_comm ..).2 h'⟩
        exact ⟨ha.resolve_left hn, .inr hn⟩
      · exact ⟨ha.2, ha.1, Finset.mem_sdiff.2 ⟨hr, hrt⟩⟩
  · rintro u v ⟨ha, A, B, hA, hB, hab⟩
    have hm := hT.wf.mem_of_adj ha
    refine hcf.find hRt ha ?_
    rintro x y (⟨rfl, rfl⟩ | ⟨rfl, rfl⟩) hx rfl
    · rw [hA.unique (isSide_sub hRt hm.1 hx), hB.unique (isSide_compl hRt hm.1 hx)] at hab
      exact (hbal _).2 hab
    · rw [hA.unique (isSide_compl hRt hm.2 hx), hB.unique (isSide_sub hRt hm.2 hx)] at hab
      exact (hbal _).2 hab.symm

theorem draws_memoFromRoot (N fuel : ℕ) (h : PopGraph V) (o : Bool) (root : V) : Draws fuel (memoFromRoot (uniRand N) o fuel h root) := by
  unfold memoFromRoot
  rcases hp : calcPops fuel (successors h.graph root) root h.population with e | pops
  · exact .done (.error e) (fun t => rfl)
  · have hlen : pops.entries.length ≤ fuel := by
      unfold calcPops at hp
      rw [Py.bind_eq_ok] at hp
      obtain ⟨cs, -, hp⟩ := hp
      have := calcPopsLoop_length _ _ _ _ _ _ hp
      simpa [Dict.empty] using this
    exact (draws_memoLoop N fuel h (predecessors h.graph root) (successors h.graph root) o pops.entries []).mono hlen

/-! ### The number of cuts -/

open Classical in
/-- the edges of the tree on `U` that can be cut -/
noncomputable def cutEdges (o : Bool) (ok : ℚ → Prop) (pop : V → ℚ) (U : Finset V) (E : Finset (V × V)) : Finset (V × V) :=
  E.filter (fun e => CutEdge o ok pop ⟨U, E⟩ e.1 e.2)

section cuts
variable {o : Bool} {ok : ℚ → Prop} {pop : V → ℚ} {U : Finset V} {E : Finset (V × V)} {root : V} {cuts : List (Cut V)}

theorem RootCuts.length (hwf : (⟨U, E⟩ : Graph V).WF) (hc : RootCuts o ok pop ⟨U, E⟩ root cuts) : cuts.length = (cutEdges o ok pop U E).card := by
  classical
  have e1 := List.toFinset_card_of_nodup hc.nodup
  rw [List.length_map] at e1
  rw [← e1]
  refine le_antisymm ?_ ?_
  · refine (Finset.card_le_card (t := (cutEdges o ok pop U E).image sortPair) ?_).trans Finset.card_image_le
    intro z hz
    obtain ⟨c, hcm, rfl⟩ := List.mem_map.1 (List.mem_toFinset.1 hz)
    have hb := hc.edge c hcm
    rw [Finset.mem_image]
    unfold cutEdges
    rcases hb.1 with h | h
    · exact ⟨c.edge, Finset.mem_filter.2 ⟨h, hb⟩, rfl⟩
    · exact ⟨(c.edge.2, c.edge.1), Finset.mem_filter.2 ⟨h, hb.symm⟩, sortPair_comm _ _⟩
  · refine Finset.card_le_card_of_injOn sortPair ?_ ?_
    · intro e he
      have he' : e ∈ cutEdges o ok pop U E := he
      unfold cutEdges at he'
      obtain ⟨c, hcm, hce⟩ := hc.all e.1 e.2 (Finset.mem_filter.1 he').2
      show sortPair e ∈ _
      rw [Finset.mem_coe, List.mem_toFinset, List.mem_map]
      refine ⟨c, hcm, ?_⟩
      rcases hce with hce | hce
      · rw [hce]
      · rw [hce, sortPair_comm]
    · intro e he e' he' hee
      have h1 : e ∈ E := by
        have : e ∈ cutEdges o ok pop U E := he
        unfold cutEdges at this
        exact (Finset.mem_filter.1 this).1
      have h2 : e' ∈ E := by
        have : e' ∈ cutEdges o ok pop U E := he'
        unfold cutEdges at this
        exact (Finset.mem_filter.1 this).1
      exact sortPair_injOn hwf h1 h2 hee

theorem SidePicked.admits {A B : Finset V} (h : SidePicked o ok pop root A B) : Admits o ok (popOf pop A) (popOf pop B) := by
  unfold SidePicked at h
  unfold Admits
  split_ifs at h ⊢
  · exact .inl h.1
  · exact ⟨h.1, h.2.1⟩

theorem SidePicked.not_both {A B : Finset V} (hr : root ∈ A ∪ B) (hAB : Disjoint A B) (h1 : SidePicked o ok pop root A B) (h2 : SidePicked o ok pop root B A) : False := by
  unfold SidePicked at h1 h2
  split_ifs at h1 h2
  · have k1 := h1.2.resolve_right (fun h => h h2.1)
    have k2 := h2.2.resolve_right (fun h => h h1.1)
    rcases Finset.mem_union.1 hr with h | h
    · exact k1 h
    · exact k2 h
  · exact Finset.disjoint_left.1 hAB h1.2.2 h2.2.2

open Classical in
/-- Among the cuts seen from a root one returns `A` if the tree has one edge between `A` and `B` and the root lies on the right side. -/
theorem count_root_cuts {G : Graph V} (hG : G.WF) {A B : Finset V} (hAB : Disjoint A B) (hA : A ⊆ G.nodes) (hB : B ⊆ G.nodes)
    (hE : E ∈ treeSets (G.subgraph (A ∪ B))) (hr : root ∈ A ∪ B) (hc : RootCuts o ok pop ⟨A ∪ B, E⟩ root cuts) :
    (cuts.filter (fun c => c.subset = A)).length = if (E ∩ seamOf G A B).card = 1 ∧ SidePicked o ok pop root A B then 1 else 0 := by
  obtain ⟨hs, ht⟩ := (mem_treeSets (Finset.union_subset hA hB)).1 hE
  have hBA : (A ∪ B) \ A = B := by rw [Finset.union_sdiff_left, Finset.sdiff_eq_self_of_disjoint hAB.symm]
  have hcross : ∀ c ∈ cuts, c.subset = A → ∃ e, E ∩ seamOf G A B = {e} ∧ sortPair c.edge = sortPair e := by
    intro c hcm hm
    obtain ⟨u, v, huv, hside, -⟩ := hc.side c hcm
    have hadj : Graph.Adj (⟨A ∪ B, E⟩ : Graph V) u v := by
      rcases huv with h | h
      · have := (hc.edge c hcm).1; rw [h] at this; exact this
      · have := (hc.edge c hcm).1; rw [h] at this; exact this.symm
    obtain ⟨X, hX, hX'⟩ := side_compl ht hadj
    rw [hm] at hside
    have hXe := hX.unique hside
    have hother : v ∉ A := by
      have := (hX' v).2 ⟨(ht.wf.mem_of_adj hadj).2, Relation.ReflTransGen.refl⟩
      rw [hXe] at this
      exact (Finset.mem_sdiff.1 this).2
    obtain ⟨e, he, he'⟩ := seam_of_side hG hAB hA hB hE hadj hside hother
    refine ⟨e, he, ?_⟩
    rcases huv with h | h <;> rw [h] <;> rcases he' with rfl | rfl
    · rfl
    · exact sortPair_comm _ _
    · exact sortPair_comm _ _
    · rfl
  split_ifs with h1
  · obtain ⟨e, he⟩ := Finset.card_eq_one.1 h1.1
    obtain ⟨heE, -, x, hx, y, hy, hexy, huniq⟩ := seam_unique hG hAB (fun f hf => (hs f hf).1) he
    have hA0 : A.Nonempty := ⟨x, hx⟩
    have hB0 : B.Nonempty := ⟨y, hy⟩
    have s1 := side_of_seam hG hAB hA hB hA0 hE hx hy huniq
    have s2 : IsSide ⟨A ∪ B, E⟩ y x B := by
      have := side_of_seam hG hAB.symm hB hA hB0 (by rw [Finset.union_comm]; exact hE) hy hx
        (fun a ha b hb hab => (huniq b hb a ha (by rw [Finset.union_comm]; exact hab.symm)).symm)
      rw [Finset.union_comm] at this
      exact this
    have hxy : Graph.Adj (⟨A ∪ B, E⟩ : Graph V) x y := by
      rcases hexy with rfl | rfl
      · exact .inl heE
      · exact .inr heE
    obtain ⟨c, hcm, hce⟩ := hc.all x y ⟨hxy, A, B, s1, s2, h1.2.admits⟩
    have hcs : c.subset = A := by
      obtain ⟨u, v, huv, hside, hpick⟩ := hc.side c hcm
      have hAB' : (u = x ∧ v = y) ∨ (u = y ∧ v = x) := by
        rcases huv with h | h <;> rcases hce with h' | h' <;> rw [h] at h' <;> cases h'
        · exact .inl ⟨rfl, rfl⟩
        · exact .inr ⟨rfl, rfl⟩
        · exact .inr ⟨rfl, rfl⟩
        · exact .inl ⟨rfl, rfl⟩
      rcases hAB' with ⟨rfl, rfl⟩ | ⟨rfl, rfl⟩
      · exact hside.unique s1
      · have hcB := hside.unique s2
        rw [hcB] at hpick
        have hAB2 : (A ∪ B) \ B = A := by rw [Finset.union_sdiff_right, Finset.sdiff_eq_self_of_disjoint hAB]
        simp only [hAB2] at hpick
        exact (h1.2.not_both hr hAB hpick).elim
    have hle : (cuts.filter (fun c => c.subset = A)).length ≤ 1 := by
      have hnd' : ((cuts.filter (fun c => c.subset = A)).map (fun c => sortPair c.edge)).Nodup :=
        hc.nodup.sublist (List.filter_sublist.map _)
      have hsub : ∀ z ∈ (cuts.filter (fun c => c.subset = A)).map (fun c => sortPair c.edge), z = sortPair e := by
        intro z hz
        obtain ⟨c', hc', rfl⟩ := List.mem_map.1 hz
        rw [List.mem_filter, decide_eq_true_eq] at hc'
        obtain ⟨e', he', hse⟩ := hcross c' hc'.1 hc'.2
        rw [he] at he'
        rw [hse, Finset.singleton_injective he']
      have := List.toFinset_card_of_nodup hnd'
      rw [List.length_map] at this
      rw [← this]
      refine (Finset.card_le_card (t := {sortPair e}) ?_).trans (by simp)
      intro z hz
      rw [Finset.mem_singleton]
      exact hsub z (List.mem_toFinset.1 hz)
    have hpos : 0 < (cuts.filter (fun c => c.subset = A)).length :=
      List.length_pos_of_mem (List.mem_filter.2 ⟨hcm, decide_eq_true hcs⟩)
    omega
  · rw [List.length_eq_zero_iff, List.filter_eq_nil_iff]
    intro c hcm hm
    rw [decide_eq_true_eq] at hm
    obtain ⟨e, he, -⟩ := hcross c hcm hm
    obtain ⟨u, v, -, -, hpick⟩ := hc.side c hcm
    rw [hm] at hpick
    simp only [hBA] at hpick
    exact h1 ⟨by rw [he]; rfl, hpick⟩

end cuts

/-! ### The probability of a side -/

/-- the nodes of the tree that can be the root -/
def innerNodes (U : Finset V) (E : Finset (V × V)) : Finset V := U.filter (fun x => 1 < Graph.degree ⟨U, E⟩ x)

open Classical in
/-- the share of them from which the side `A` is returned -/
noncomputable def pickShare (o : Bool) (ok : ℚ → Prop) (pop : V → ℚ) (E : Finset (V × V)) (A B : Finset V) : ℚ :=
  ((innerNodes (A ∪ B) E).filter (fun x => SidePicked o ok pop x A B)).card / ((innerNodes (A ∪ B) E).card : ℚ)

/-- the probability, when the tree on `A ∪ B` has the law `μ`, that the tree has exactly one edge between `A` and `B`, that this edge is chosen among the
edges that can be cut, and that its side `A` is returned -/
noncomputable def partChance (o : Bool) (ok : ℚ → Prop) (G : Graph V) (pop : V → ℚ) (μ : Finset V → Finset (V × V) → ℚ) (A B : Finset V) : ℚ :=
  ∑ E ∈ (treeSets (G.subgraph (A ∪ B))).filter (fun E => (E ∩ seamOf G A B).card = 1),
    μ (A ∪ B) E * (pickShare o ok pop E A B / ((cutEdges o ok pop (A ∪ B) E).card : ℚ))

open Classical in
/-- the probability that the tree has an edge that can be cut -/
noncomputable def someChance (o : Bool) (ok : ℚ → Prop) (G : Graph V) (pop : V → ℚ) (μ : Finset V → Finset (V × V) → ℚ) (U : Finset V) : ℚ :=
  ∑ E ∈ (treeSets (G.subgraph U)).filter (fun E => cutEdges o ok pop U E ≠ ∅), μ U E

/-- the probability that `A` is cut off from `A ∪ B` in `m` attempts, `r` with each tree -/
noncomputable def partLaw (o : Bool) (ok : ℚ → Prop) (r m : ℕ) (G : Graph V) (pop : V → ℚ) (μ : Finset V → Finset (V × V) → ℚ) (A B : Finset V) : ℚ :=
  partChance o ok G pop μ A B / someChance o ok G pop μ (A ∪ B) * (1 - (1 - someChance o ok G pop μ (A ∪ B)) ^ ((m + r - 1) / r))

/-- the program returned this set -/
def isSet (A : Finset V) : Py (Finset V) → ℚ
  | .ok X => if X = A then 1 else 0
  | .error _ => 0

section step
variable {N r m d0 : ℕ} {G : Graph V} {pop : V → ℚ} {target eps : ℚ} {span : Graph V → M Tape (WTree V)} {μ : Finset V → Finset (V × V) → ℚ} {o : Bool}

theorem length_inner (U : Finset V) (E : Finset (V × V)) :
    ((iter U).filter (fun x => Graph.degree (⟨U, E⟩ : Graph V) x > 1)).length = (innerNodes U E).card := by
  rw [← List.toFinset_card_of_nodup ((nodup_iter U).filter _), List.toFinset_filter, toFinset_iter]
  congr 1
  ext x
  simp [innerNodes]

theorem sum_inner (U : Finset V) (E : Finset (V × V)) (p : V → Prop) [DecidablePred p] (x : ℚ) :
    (((iter U).filter (fun x => Graph.degree (⟨U, E⟩ : Graph V) x > 1)).map (fun y => if p y then x else 0)).sum =
      ((innerNodes U E).filter p).card * x := by
  rw [sum_map_ite]
  congr 2
  rw [← List.toFinset_card_of_nodup (((nodup_iter U).filter _).filter _), List.toFinset_filter, List.toFinset_filter, toFinset_iter]
  congr 1
  ext x
  simp [innerNodes]

theorem tree_card_le {U : Finset V} {E : Finset (V × V)} (hU : U ⊆ G.nodes) (hE : E ∈ treeSets (G.subgraph U)) : E.card ≤ G.edges.card ∧ U.card ≤ G.edges.card + 1 := by
  obtain ⟨hs, ht⟩ := (mem_treeSets hU).1 hE
  have h1 := Finset.card_le_card (fun e he => (hs e he).1 : E ⊆ G.edges)
  have h2 : E.card + 1 = U.card := ht.card
  omega

/-- the average over the root and the choice of the cut -/
theorem root_mean (hG : G.WF) (hN : 0 < N) (hdiv : (2 ^ G.edges.card).factorial ∣ N) {A B : Finset V} (hAB : Disjoint A B) (hU : A ∪ B ⊆ G.nodes)
    (h3 : 3 ≤ (A ∪ B).card) {E : Finset (V × V)} (hE : E ∈ treeSets (G.subgraph (A ∪ B))) (hgood : cutEdges o (Near target eps) pop (A ∪ B) E ≠ ∅)
    (wt : V → V → Option ℚ) (L : ℕ) (hL : 2 + 2 * (A ∪ B).card ≤ L) :
    avg N L (fun w => isSet A ((do
      let cuts ← memoBalance (uniRand N) o (PopGraph.init (A ∪ B) ⟨A ∪ B, E⟩ wt pop target eps)
      let c ← (uniRand N).choice cuts
      pure c.subset : M Tape (Finset V)) w).1) =
    if (E ∩ seamOf G A B).card = 1 then pickShare o (Near target eps) pop E A B / ((cutEdges o (Near target eps) pop (A ∪ B) E).card : ℚ) else 0 := by
  classical
  obtain ⟨L, rfl⟩ : ∃ L', L = L' + 1 := ⟨L - 1, by omega⟩
  obtain ⟨hs, ht⟩ := (mem_treeSets hU).1 hE
  obtain ⟨c1, c2⟩ := tree_card_le hU hE
  have hdvd : ∀ d, 0 < d → d ≤ 2 ^ G.edges.card → d ∣ N := fun d h0 hd => (Nat.dvd_factorial h0 hd).trans hdiv
  have hpow : G.edges.card + 1 ≤ 2 ^ G.edges.card := Nat.lt_two_pow_self
  have hne := exists_inner_node ht h3
  have hlen : ((iter (A ∪ B)).filter (fun x => Graph.degree (⟨A ∪ B, E⟩ : Graph V) x > 1)).length ∣ N := by
    refine hdvd _ (List.length_pos_iff.2 hne) ?_
    refine (List.length_filter_le _ _).trans ?_
    rw [length_iter]
    omega
  have hbind : ∀ w : Tape, (do
      let cuts ← memoBalance (uniRand N) o (PopGraph.init (A ∪ B) ⟨A ∪ B, E⟩ wt pop target eps)
      let c ← (uniRand N).choice cuts
      pure c.subset : M Tape (Finset V)) w = ((uniRand N).choice ((iter (A ∪ B)).filter (fun x => Graph.degree (⟨A ∪ B, E⟩ : Graph V) x > 1)) >>= fun root =>
        memoFromRoot (uniRand N) o (2 * (A ∪ B).card) (PopGraph.init (A ∪ B) ⟨A ∪ B, E⟩ wt pop target eps) root >>= fun cuts =>
          (uniRand N).choice cuts >>= fun c => pure c.subset : M Tape (Finset V)) w := by
    intro w
    rw [memoBalance_root_eq, M.bind_assoc']
    rfl
  rw [avg_congr N _ (fun w => by rw [hbind w])]
  rw [avg_choice hN L _ hne hlen]
  have hroot : ∀ root ∈ (iter (A ∪ B)).filter (fun x => Graph.degree (⟨A ∪ B, E⟩ : Graph V) x > 1),
      avg N L (fun w => isSet A ((memoFromRoot (uniRand N) o (2 * (A ∪ B).card) (PopGraph.init (A ∪ B) ⟨A ∪ B, E⟩ wt pop target eps) root >>= fun cuts =>
          (uniRand N).choice cuts >>= fun c => pure c.subset : M Tape (Finset V)) w).1) =
        if (E ∩ seamOf G A B).card = 1 ∧ SidePicked o (Near target eps) pop root A B then 1 / ((cutEdges o (Near target eps) pop (A ∪ B) E).card : ℚ) else 0 := by
    intro root hroot
    rw [List.mem_filter, mem_iter] at hroot
    refine avg_bind_const hN (draws_memoFromRoot N _ _ o root) 1 L (by omega) ?_ ?_
    · intro w w' cuts hc L' hL'
      obtain ⟨cuts', w'', k1, k2⟩ := memoRoot_spec ht (uniRand N) (uniRand_valid hN) wt pop target eps o (fuel := 2 * (A ∪ B).card) le_rfl hroot.1 w
      have hk : ((.ok cuts' : Py (List (Cut V))), w'') = (.ok cuts, w') := k1.symm.trans hc
      cases hk
      have hl := k2.length ht.wf
      have hcuts : cuts ≠ [] := by
        intro e
        rw [e] at hl
        exact hgood (Finset.card_eq_zero.1 hl.symm)
      obtain ⟨L', rfl⟩ : ∃ L'', L' = L'' + 1 := ⟨L' - 1, by omega⟩
      have hd : cuts.length ∣ N := by
        refine hdvd _ (List.length_pos_iff.2 hcuts) ?_
        rw [hl]
        unfold cutEdges
        have := Finset.card_le_card (Finset.filter_subset (fun e => CutEdge o (Near target eps) pop ⟨A ∪ B, E⟩ e.1 e.2) E)
        omega
      rw [avg_choice hN L' cuts hcuts hd]
      have hmap : cuts.map (fun c => avg N L' (fun w => isSet A ((pure c.subset : M Tape (Finset V)) w).1)) =
          cuts.map (fun c => if c.subset = A then (1 : ℚ) else 0) := by
        refine List.map_congr_left (fun c _ => ?_)
        exact avg_const hN L' _
      rw [hmap, sum_map_ite, count_root_cuts hG hAB (Finset.union_subset_left hU) (Finset.union_subset_right hU) hE hroot.1 k2, hl]
      split_ifs <;> simp
    · intro w w' e he
      obtain ⟨cuts', w'', k1, k2⟩ := memoRoot_spec ht (uniRand N) (uniRand_valid hN) wt pop target eps o (fuel := 2 * (A ∪ B).card) le_rfl hroot.1 w
      have hk : ((.ok cuts' : Py (List (Cut V))), w'') = ((.error e : Py (List (Cut V))), w') := k1.symm.trans he
      cases hk
  rw [List.map_congr_left hroot, sum_inner, length_inner]
  unfold pickShare
  split_ifs with h1
  · simp only [h1, true_and]
    ring
  · simp [h1]

theorem inner_small (hN : 0 < N) {U : Finset V} {E : Finset (V × V)} (ht : IsTree ⟨U, E⟩) (h2 : U.card ≤ 2) : innerNodes U E = ∅ := by
  by_contra hne
  obtain ⟨x, hx⟩ := Finset.nonempty_iff_ne_empty.2 hne
  have hx' : x ∈ (iter U).filter (fun x => Graph.degree (⟨U, E⟩ : Graph V) x > 1) := by
    rw [List.mem_filter, mem_iter]
    have := Finset.mem_filter.1 hx
    exact ⟨this.1, decide_eq_true this.2⟩
  obtain ⟨y, hy, w', hw⟩ := (uniRand_valid hN).choice_mem _ [] (List.ne_nil_of_mem hx')
  obtain ⟨-, w2, k⟩ := C31_two_nodes (T := ⟨U, E⟩) ht h2 (uniRand N) (uniRand_valid hN) (fun _ _ => none) (fun _ => 0) 0 0 false (2 * U.card) []
  have k' : memoBalance (uniRand N) false (PopGraph.init U ⟨U, E⟩ (fun _ _ => none) (fun _ => 0) 0 0) [] = (.error .indexError, w2) := k
  rw [memoBalance_root_eq] at k'
  obtain ⟨cuts, w3, k1, -⟩ := memoRoot_spec ht (uniRand N) (uniRand_valid hN) (fun _ _ => none) (fun _ => 0) 0 0 false (fuel := 2 * U.card) le_rfl
    (mem_iter.1 (List.mem_filter.1 hy).1) w'
  have := (M.bind_ok (f := memoFromRoot (uniRand N) false (2 * U.card) (PopGraph.init U ⟨U, E⟩ (fun _ _ => none) (fun _ => 0) 0 0)) hw).symm.trans k'
  have h3 : ((.ok cuts : Py (List (Cut V))), w3) = ((.error .indexError : Py (List (Cut V))), w2) := k1.symm.trans this
  cases h3

/-- **One cut.**  The probability that `bipartition_tree` returns `A`. -/
theorem bipartition_law (hG : G.WF) (hN : 0 < N) (hdiv : (2 ^ G.edges.card).factorial ∣ N) (hr : 0 < r) (hl : TreeLaw N d0 G span μ)
    {A B : Finset V} (hAB : Disjoint A B) (hU : A ∪ B ⊆ G.nodes) (hconn : ConnectedOn G (A ∪ B)) (L : ℕ) (hL : 1 + m * (d0 + (1 + 2 * (A ∪ B).card)) ≤ L) :
    avg N L (fun w => isSet A (bipartitionTree ⟨span, memoBalance (uniRand N) o, r, some m⟩ (fun _ => (uniRand N).choice) false (m + 1) none
      (G.subgraph (A ∪ B)) pop target eps w).1) = partLaw o (Near target eps) r m G pop μ A B := by
  classical
  have hn := subgraph_nodes hU
  have hlaw := hl.on _ hU hconn
  by_cases h3 : 3 ≤ (A ∪ B).card
  · have hv : TreeMeans N d0 (1 + 2 * (A ∪ B).card) ⟨span, memoBalance (uniRand N) o, r, some m⟩ (fun _ => (uniRand N).choice) (G.subgraph (A ∪ B)) pop
        target eps (treeSets (G.subgraph (A ∪ B))) (μ (A ∪ B)) (fun E => cutEdges o (Near target eps) pop (A ∪ B) E ≠ ∅) (isSet A)
        (fun E => if (E ∩ seamOf G A B).card = 1 then pickShare o (Near target eps) pop E A B / ((cutEdges o (Near target eps) pop (A ∪ B) E).card : ℚ)
          else 0) := by
      have hcuts : ∀ E ∈ treeSets (G.subgraph (A ∪ B)), ∀ wt w, ∃ cuts w', memoBalance (uniRand N) o (PopGraph.init (A ∪ B) ⟨A ∪ B, E⟩ wt pop target eps) w =
          (.ok cuts, w') ∧ cuts.length = (cutEdges o (Near target eps) pop (A ∪ B) E).card := by
        intro E hE wt w
        obtain ⟨-, ht⟩ := (mem_treeSets hU).1 hE
        obtain ⟨root, hroot, w', hw⟩ := (uniRand_valid hN).choice_mem _ w (exists_inner_node ht h3)
        obtain ⟨cuts, w2, k1, k2⟩ := memoRoot_spec ht (uniRand N) (uniRand_valid hN) wt pop target eps o (fuel := 2 * (A ∪ B).card) le_rfl
          (mem_iter.1 (List.mem_filter.1 hroot).1) w'
        refine ⟨cuts, w2, ?_, k2.length ht.wf⟩
        rw [memoBalance_root_eq]
        exact (M.bind_ok (f := memoFromRoot (uniRand N) o (2 * (A ∪ B).card) (PopGraph.init (A ∪ B) ⟨A ∪ B, E⟩ wt pop target eps)) hw).trans k1
      refine ⟨by rw [hn]; exact hlaw, hr, fun _ => rfl, ?_, ?_, ?_, ?_, ?_⟩
      · intro x hx
        have := draws_memoization N (2 * x.graph.nodes.card) x o
        rw [hx, hn] at this
        show Draws _ (memoBalance (uniRand N) o x)
        unfold memoBalance
        rw [hx, hn]
        exact this
      · intro E hE hg wt w
        rw [hn]
        obtain ⟨cuts, w', k1, k2⟩ := hcuts E hE wt w
        refine ⟨cuts, w', k1, fun e => hg ?_⟩
        rw [e] at k2
        exact Finset.card_eq_zero.1 k2.symm
      · intro E hE hg wt w
        rw [hn]
        obtain ⟨cuts, w', k1, k2⟩ := hcuts E hE wt w
        rw [not_not.1 hg, Finset.card_empty, List.length_eq_zero_iff] at k2
        exact ⟨w', k2 ▸ k1⟩
      · intro E hE hg wt L hL
        rw [hn]
        exact root_mean hG hN hdiv hAB hU h3 hE hg wt L (by omega)
      · intro E hE hg
        rw [not_not.1 hg]
        simp
    rw [hv.bipartition (m := m) rfl (Nat.lt_succ_self m) L hL]
    have hsum : (∑ E ∈ treeSets (G.subgraph (A ∪ B)), μ (A ∪ B) E * if (E ∩ seamOf G A B).card = 1 then
        pickShare o (Near target eps) pop E A B / ((cutEdges o (Near target eps) pop (A ∪ B) E).card : ℚ) else 0) = partChance o (Near target eps) G pop μ A B := by
      unfold partChance
      rw [Finset.sum_filter]
      refine Finset.sum_congr rfl (fun E _ => ?_)
      split_ifs
      · rfl
      · ring
    have hfilter : someChance o (Near target eps) G pop μ (A ∪ B) =
        ∑ E ∈ (treeSets (G.subgraph (A ∪ B))).filter (fun E => cutEdges o (Near target eps) pop (A ∪ B) E ≠ ∅), μ (A ∪ B) E := by
      unfold someChance
      congr!
    unfold partLaw
    by_cases hgood : someChance o (Near target eps) G pop μ (A ∪ B) ≠ 0
    · rw [triedValue_eq hlaw.sum (by rw [← hfilter]; exact hgood), hsum, ← hfilter]
      rfl
    · rw [not_not] at hgood
      have h0 : partChance o (Near target eps) G pop μ A B = 0 := by
        rw [← hsum]
        refine Finset.sum_eq_zero (fun E hE => ?_)
        by_cases hb : cutEdges o (Near target eps) pop (A ∪ B) E = ∅
        · rw [hb]
          simp
        · rw [hgood] at hfilter
          have := (Finset.sum_eq_zero_iff_of_nonneg (fun E hE => hlaw.nonneg (Finset.mem_filter.1 hE).1)).1 hfilter.symm E (Finset.mem_filter.2 ⟨hE, hb⟩)
          rw [this, zero_mul]
      unfold triedValue
      rw [hsum, h0]
      simp
  · -- two nodes
    have h2 : (A ∪ B).card ≤ 2 := by omega
    have hz : partChance o (Near target eps) G pop μ A B = 0 := by
      unfold partChance
      refine Finset.sum_eq_zero (fun E hE => ?_)
      obtain ⟨-, ht⟩ := (mem_treeSets hU).1 (Finset.mem_filter.1 hE).1
      unfold pickShare
      rw [inner_small hN ht h2]
      simp
    unfold partLaw
    rw [hz]
    have hprog : ∀ w : Tape, isSet A (bipartitionTree ⟨span, memoBalance (uniRand N) o, r, some m⟩ (fun _ => (uniRand N).choice) false (m + 1) none
        (G.subgraph (A ∪ B)) pop target eps w).1 = 0 := by
      intro w
      unfold bipartitionTree
      obtain ⟨t, w', hw, k1, k2⟩ := hlaw.returns w
      simp only
      rw [M.bind_ok hw]
      cases m with
      | zero => rw [bipLoop_over rfl (le_refl _)]; rfl
      | succ m =>
        rw [bipLoop_same rfl (Nat.succ_pos m) (by show 0 ≠ r; omega)]
        unfold attemptOn
        obtain ⟨-, ht⟩ := (mem_treeSets hU).1 k2
        have hg : t.graph = ⟨A ∪ B, t.graph.edges⟩ := by rw [← k1]
        obtain ⟨-, w2, k⟩ := C31_two_nodes ht h2 (uniRand N) (uniRand_valid hN) t.weight pop target eps o (2 * (A ∪ B).card) w'
        have k' : (⟨span, memoBalance (uniRand N) o, r, some (m + 1)⟩ : BipConfig V Tape).balanceFn
            (PopGraph.init (G.subgraph (A ∪ B)).nodes t.graph t.weight pop target eps) w' = (.error .indexError, w2) := by
          rw [hn, hg]; exact k
        rw [M.bind_error k']
        rfl
    rw [avg_congr N L hprog, avg_const hN]
    ring

end step

end GC

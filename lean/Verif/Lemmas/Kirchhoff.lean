import Verif.Lemmas.TreeSplit
import Verif.Props.Spanning
import Mathlib.LinearAlgebra.Matrix.Block
import Mathlib.LinearAlgebra.Matrix.ToLinearEquiv
import Mathlib.LinearAlgebra.Matrix.Determinant.Basic

/-!
# Determinants that count rooted trees

The determinant of a Laplacian without the row and column of the root is a sum over all choices of one neighbour for every other node; a choice
counts 1 when it leads everybody to the root and 0 otherwise.
-/

set_option linter.unusedSectionVars false
set_option autoImplicit false

namespace GC

open Matrix

variable {ι : Type} [Fintype ι] [DecidableEq ι]

/-- the matrix of the map that sends every node to its parent; `none` is the root -/
def parentMatrix (f : ι → Option ι) : Matrix ι ι ℤ := fun v w => (if v = w then 1 else 0) - (if f v = some w then 1 else 0)

/-- all nodes are led to the root: the rank decreases along the way -/
def Ranked (f : ι → Option ι) : Prop := ∃ rank : ι → ℕ, ∀ v w, f v = some w → rank w < rank v

theorem det_ranked {f : ι → Option ι} (h : Ranked f) : (parentMatrix f).det = 1 := by
  obtain ⟨rank, hr⟩ := h
  have ht : (parentMatrix f).BlockTriangular (fun v => OrderDual.toDual (rank v)) := by
    intro i j hij
    have hij : rank i < rank j := hij
    unfold parentMatrix
    rw [if_neg (by rintro rfl; omega), if_neg (fun h => by have := hr _ _ h; omega), sub_zero]
  rw [ht.det]
  refine Finset.prod_eq_one (fun a _ => ?_)
  have : (parentMatrix f).toSquareBlock (fun v => OrderDual.toDual (rank v)) a = 1 := by
    ext i j
    have hij : rank i.1 = rank j.1 := i.2.trans j.2.symm
    show parentMatrix f i.1 j.1 = _
    unfold parentMatrix
    rw [if_neg (fun h => by have := hr _ _ h; omega : f i.1 ≠ some j.1), sub_zero, Matrix.one_apply]
    simp only [Subtype.ext_iff]
  rw [this, Matrix.det_one]

open Classical in
theorem det_not_ranked {f : ι → Option ι} (h : ¬ Ranked f) : (parentMatrix f).det = 0 := by
  rw [← Matrix.exists_mulVec_eq_zero_iff]
  -- the nodes that never reach the root
  let g : Option ι → Option ι := fun o => o.bind f
  let lost : ι → Prop := fun v => ∀ k, g^[k] (some v) ≠ none
  have step : ∀ v w, f v = some w → ∀ k, g^[k + 1] (some v) = g^[k] (some w) := by
    intro v w hvw k
    rw [Function.iterate_succ_apply]
    show g^[k] (f v) = _
    rw [hvw]
  have hsome : ∃ v, lost v := by
    by_contra hno
    push Not at hno
    have hno : ∀ v, ∃ k, g^[k] (some v) = none := by
      intro v
      by_contra hc
      exact hno v (fun k hk => hc ⟨k, hk⟩)
    refine h ⟨fun v => Nat.find (hno v), fun v w hvw => ?_⟩
    obtain ⟨k, hk⟩ : ∃ k, Nat.find (hno v) = k + 1 := by
      rcases hn : Nat.find (hno v) with _ | k
      · have := Nat.find_spec (hno v)
        rw [hn] at this
        cases this
      · exact ⟨k, rfl⟩
    have := Nat.find_spec (hno v)
    rw [hk, step v w hvw] at this
    have := Nat.find_min' (hno w) this
    show Nat.find (hno w) < Nat.find (hno v)
    omega
  obtain ⟨v0, hv0⟩ := hsome
  refine ⟨fun v => if lost v then 1 else 0, fun h0 => ?_, ?_⟩
  · have := congrFun h0 v0
    rw [if_pos hv0] at this
    exact one_ne_zero this
  · ext v
    simp only [Matrix.mulVec, dotProduct, parentMatrix, Pi.zero_apply, sub_mul, Finset.sum_sub_distrib, ite_mul, one_mul, zero_mul,
      Finset.sum_ite_eq, Finset.mem_univ, if_true]
    rcases hf : f v with _ | w
    · rw [if_neg]
      · simp
      · intro hl
        exact hl 1 (by rw [Function.iterate_one]; exact hf)
    · have hlw : lost v ↔ lost w := by
        constructor
        · intro hl k hk
          exact hl (k + 1) (by rw [step v w hf]; exact hk)
        · intro hl k hk
          rcases k with _ | k
          · cases hk
          · rw [step v w hf] at hk
            exact hl k hk
      simp only [Option.some.injEq, Finset.sum_ite_eq, Finset.mem_univ, if_true, hlw, sub_self]

/-- the Laplacian of the neighbourhoods `N`, without the root -/
def laplaceOf (N : ι → Finset (Option ι)) : Matrix ι ι ℤ :=
  fun v w => (if v = w then ((N v).card : ℤ) else 0) - (if some w ∈ N v then 1 else 0)

open Classical in
/-- The determinant counts the ways of choosing a neighbour for every node such that everybody is led to the root. -/
theorem det_laplaceOf (N : ι → Finset (Option ι)) :
    (laplaceOf N).det = (((Fintype.piFinset N).filter Ranked).card : ℤ) := by
  have hrow : laplaceOf N = fun v => ∑ o ∈ N v, fun w => ((if v = w then 1 else 0) - (if o = some w then 1 else 0) : ℤ) := by
    ext v w
    rw [Finset.sum_apply, Finset.sum_sub_distrib]
    unfold laplaceOf
    congr 1
    · split_ifs <;> simp
    · simp
  have hsum : (laplaceOf N).det = ∑ f ∈ Fintype.piFinset N, (parentMatrix f).det := by
    have := (Matrix.detRowAlternating (n := ι) (R := ℤ)).toMultilinearMap.map_sum_finset
      (fun (v : ι) (o : Option ι) => fun w => ((if v = w then 1 else 0) - (if o = some w then 1 else 0) : ℤ)) N
    rw [hrow]
    exact this
  rw [hsum, Finset.card_filter]
  push_cast
  refine Finset.sum_congr rfl (fun f _ => ?_)
  split_ifs with h
  · exact det_ranked h
  · exact det_not_ranked h

/-! ### Choices that lead to the root are spanning trees -/

section
variable {V : Type} [LinearOrder V] {G : Graph V} {nd : Option ι → V}

/-- The nodes of the graph are listed by `nd`; `nd none` is the root. -/
structure Listing (G : Graph V) (nd : Option ι → V) : Prop where
  inj : Function.Injective nd
  mem : ∀ v, v ∈ G.nodes ↔ ∃ o, nd o = v

/-- the neighbours of a node other than the root -/
def nbrs (G : Graph V) (nd : Option ι → V) (i : ι) : Finset (Option ι) :=
  Finset.univ.filter (fun o => o ≠ some i ∧ G.Adj (nd (some i)) (nd o))

/-- the edges between a node and its parent -/
noncomputable def parentEdges (G : Graph V) (nd : Option ι → V) (f : ι → Option ι) : Finset (V × V) :=
  open Classical in G.edges.filter (fun e => ∃ i, (e.1 = nd (some i) ∧ e.2 = nd (f i)) ∨ (e.2 = nd (some i) ∧ e.1 = nd (f i)))

theorem parentEdges_adj (f : ι → Option ι) (hf : ∀ i, G.Adj (nd (some i)) (nd (f i))) (u v : V) :
    Graph.Adj ⟨G.nodes, parentEdges G nd f⟩ u v ↔ ∃ i, (u = nd (some i) ∧ v = nd (f i)) ∨ (v = nd (some i) ∧ u = nd (f i)) := by
  unfold Graph.Adj parentEdges
  simp only [Finset.mem_filter]
  constructor
  · rintro (⟨_, i, h⟩ | ⟨_, i, h⟩)
    · exact ⟨i, h⟩
    · exact ⟨i, h.symm⟩
  · rintro ⟨i, h⟩
    have ha : G.Adj u v := by
      rcases h with ⟨rfl, rfl⟩ | ⟨rfl, rfl⟩
      · exact hf i
      · exact (hf i).symm
    rcases ha with ha | ha
    · exact Or.inl ⟨ha, i, h⟩
    · exact Or.inr ⟨ha, i, h.symm⟩

/-- a set of edges of the graph is determined by its adjacency -/
theorem edges_ext (hG : G.WF) {E E' : Finset (V × V)} (hE : E ⊆ G.edges) (hE' : E' ⊆ G.edges)
    (h : ∀ u v, Graph.Adj (⟨G.nodes, E⟩ : Graph V) u v ↔ Graph.Adj (⟨G.nodes, E'⟩ : Graph V) u v) : E = E' := by
  have key : ∀ {E E' : Finset (V × V)}, E ⊆ G.edges → E' ⊆ G.edges →
      (∀ u v, Graph.Adj (⟨G.nodes, E⟩ : Graph V) u v ↔ Graph.Adj (⟨G.nodes, E'⟩ : Graph V) u v) → E ⊆ E' := by
    intro E E' hE hE' h e he
    rcases (h e.1 e.2).1 (Or.inl he) with h1 | h1
    · exact h1
    · have h1 : (e.2, e.1) ∈ E' := h1
      by_cases hee : e.1 = e.2
      · rw [← hee] at h1
        have : (e.1, e.1) = e := Prod.ext rfl hee
        rwa [this] at h1
      · exact absurd (hE' h1) (hG.asymm e (hE he) hee)
  exact Finset.Subset.antisymm (key hE hE' h) (key hE' hE (fun u v => (h u v).symm))

theorem parentEdges_tree (hG : G.WF) (hl : Listing G nd) {f : ι → Option ι} (hf : ∀ i, f i ∈ nbrs G nd i) (hr : Ranked f) :
    parentEdges G nd f ∈ treeSets G := by
  classical
  have hadj : ∀ i, G.Adj (nd (some i)) (nd (f i)) := fun i => (Finset.mem_filter.1 (hf i)).2.2
  obtain ⟨rank, hrank⟩ := hr
  let idx : V → Option ι := Function.invFun nd
  have hidx : ∀ o, idx (nd o) = o := Function.leftInverse_invFun hl.inj
  let par : V → V := fun v => match idx v with
    | none => v
    | some i => nd (f i)
  let rk : V → ℕ := fun v => match idx v with
    | none => 0
    | some i => rank i + 1
  have hpar : ∀ i, par (nd (some i)) = nd (f i) := fun i => by simp only [par, hidx]
  have hnodes : ∀ v ∈ G.nodes, v ≠ nd none → ∃ i, nd (some i) = v := by
    intro v hv hne
    obtain ⟨_ | i, ho⟩ := (hl.mem v).1 hv
    · exact absurd ho.symm hne
    · exact ⟨i, ho⟩
  have hT : IsTree (⟨G.nodes, (G.nodes.erase (nd none)).image (fun v => (v, par v))⟩ : Graph V) := by
    refine isTree_of_parents (rank := rk) (par := par) ((hl.mem _).2 ⟨none, rfl⟩) ?_ rfl
    intro v hv hne
    obtain ⟨i, rfl⟩ := hnodes v hv hne
    rw [hpar]
    refine ⟨(hl.mem _).2 ⟨_, rfl⟩, ?_⟩
    simp only [rk, hidx]
    rcases hfi : f i with _ | j
    · simp
    · have := hrank i j hfi
      simpa using this
  have hTadj : ∀ u v, Graph.Adj (⟨G.nodes, (G.nodes.erase (nd none)).image (fun v => (v, par v))⟩ : Graph V) u v ↔
      ∃ i, (u = nd (some i) ∧ v = nd (f i)) ∨ (v = nd (some i) ∧ u = nd (f i)) := by
    intro u v
    have hm : ∀ a b, (a, b) ∈ (G.nodes.erase (nd none)).image (fun v => (v, par v)) ↔ ∃ i, a = nd (some i) ∧ b = nd (f i) := by
      intro a b
      rw [Finset.mem_image]
      constructor
      · rintro ⟨x, hx, he⟩
        obtain ⟨h1, h2⟩ := Finset.mem_erase.1 hx
        obtain ⟨i, rfl⟩ := hnodes x h2 h1
        rw [Prod.mk.injEq, hpar] at he
        exact ⟨i, he.1.symm, he.2.symm⟩
      · rintro ⟨i, rfl, rfl⟩
        refine ⟨nd (some i), Finset.mem_erase.2 ⟨fun h => (by cases hl.inj h), (hl.mem _).2 ⟨_, rfl⟩⟩, by rw [hpar]⟩
    show _ ∈ _ ∨ _ ∈ _ ↔ _
    rw [hm, hm]
    constructor
    · rintro (⟨i, h⟩ | ⟨i, h⟩)
      · exact ⟨i, Or.inl h⟩
      · exact ⟨i, Or.inr h⟩
    · rintro ⟨i, h | h⟩
      · exact Or.inl ⟨i, h⟩
      · exact Or.inr ⟨i, h⟩
  obtain ⟨E, hE, hEadj⟩ := treeSets_complete hG (T := ⟨G.nodes, (G.nodes.erase (nd none)).image (fun v => (v, par v))⟩)
    ⟨hT, rfl, fun u v h => by
      obtain ⟨i, ⟨rfl, rfl⟩ | ⟨rfl, rfl⟩⟩ := (hTadj u v).1 h
      · exact hadj i
      · exact (hadj i).symm⟩
  have hEs : E ⊆ G.edges := by
    unfold treeSets at hE
    exact Finset.mem_powerset.1 (Finset.mem_filter.1 hE).1
  have : E = parentEdges G nd f := by
    refine edges_ext hG hEs (Finset.filter_subset _ _) (fun u v => ?_)
    rw [hEadj, hTadj, parentEdges_adj f hadj]
  rwa [← this]

theorem parentEdges_inj (hl : Listing G nd) {f f' : ι → Option ι} (hf : ∀ i, f i ∈ nbrs G nd i) (hf' : ∀ i, f' i ∈ nbrs G nd i)
    (hr : Ranked f) (h : parentEdges G nd f = parentEdges G nd f') : f = f' := by
  have hadj : ∀ i, G.Adj (nd (some i)) (nd (f i)) := fun i => (Finset.mem_filter.1 (hf i)).2.2
  have hadj' : ∀ i, G.Adj (nd (some i)) (nd (f' i)) := fun i => (Finset.mem_filter.1 (hf' i)).2.2
  obtain ⟨rank, hrank⟩ := hr
  have key : ∀ n i, rank i = n → f i = f' i := by
    intro n
    induction n using Nat.strong_induction_on with
    | _ n ih =>
      intro i hn
      have h1 : Graph.Adj (⟨G.nodes, parentEdges G nd f'⟩ : Graph V) (nd (some i)) (nd (f i)) := by
        rw [← h, parentEdges_adj f hadj]
        exact ⟨i, Or.inl ⟨rfl, rfl⟩⟩
      obtain ⟨j, ⟨h2, h3⟩ | ⟨h2, h3⟩⟩ := (parentEdges_adj f' hadj' _ _).1 h1
      · have h2 := Option.some.inj (hl.inj h2)
        subst h2
        exact hl.inj h3
      · have h2 := hl.inj h2
        have h3 := hl.inj h3
        have hlt := hrank i j h2
        have := ih (rank j) (by omega) j rfl
        rw [← h3] at this
        have := hrank j i this
        omega
  exact funext (fun i => key _ i rfl)

theorem parentEdges_surj (hG : G.WF) (hl : Listing G nd) {E : Finset (V × V)} (hE : E ∈ treeSets G) :
    ∃ f : ι → Option ι, (∀ i, f i ∈ nbrs G nd i) ∧ Ranked f ∧ parentEdges G nd f = E := by
  classical
  unfold treeSets at hE
  obtain ⟨hEs, hT⟩ := Finset.mem_filter.1 hE
  have hEs := Finset.mem_powerset.1 hEs
  obtain ⟨par, rank, hR, -⟩ := bfs_rooted hT (root := nd none) ((hl.mem _).2 ⟨none, rfl⟩)
  have hne : ∀ i, nd (some i) ≠ nd none := fun i h => by cases hl.inj h
  have hmem : ∀ i, nd (some i) ∈ G.nodes := fun i => (hl.mem _).2 ⟨_, rfl⟩
  have hex : ∀ i, ∃ o, nd o = par (nd (some i)) := fun i => (hl.mem _).1 (hR.par_mem _ (hmem i) (hne i))
  choose f hf using hex
  have hsub : ∀ u v, Graph.Adj (⟨G.nodes, E⟩ : Graph V) u v → G.Adj u v := fun u v h => h.imp (fun h => hEs h) (fun h => hEs h)
  have hadj : ∀ i, Graph.Adj (⟨G.nodes, E⟩ : Graph V) (nd (some i)) (nd (f i)) := by
    intro i
    rw [hf]
    exact hR.adj _ (hmem i) (hne i)
  have hrk : ∀ i, rank (nd (f i)) < rank (nd (some i)) := by
    intro i
    rw [hf]
    exact hR.rank_lt _ (hmem i) (hne i)
  refine ⟨f, fun i => ?_, ⟨fun i => rank (nd (some i)), fun v w h => ?_⟩, ?_⟩
  · refine Finset.mem_filter.2 ⟨Finset.mem_univ _, fun h => ?_, hsub _ _ (hadj i)⟩
    have := hrk i
    rw [h] at this
    omega
  · have := hrk v
    rwa [h] at this
  · refine edges_ext hG (Finset.filter_subset _ _) hEs (fun u v => ?_)
    rw [parentEdges_adj f (fun i => hsub _ _ (hadj i))]
    constructor
    · rintro ⟨i, ⟨rfl, rfl⟩ | ⟨rfl, rfl⟩⟩
      · exact hadj i
      · exact (hadj i).symm
    · intro h
      have hm := hT.wf.mem_of_adj h
      have hnodes : ∀ v ∈ G.nodes, v ≠ nd none → ∃ i, nd (some i) = v := by
        intro v hv hne
        obtain ⟨_ | i, ho⟩ := (hl.mem v).1 hv
        · exact absurd ho.symm hne
        · exact ⟨i, ho⟩
      rcases hR.edge _ _ h with ⟨h1, h2⟩ | ⟨h1, h2⟩
      · obtain ⟨i, rfl⟩ := hnodes u hm.1 h1
        exact ⟨i, Or.inl ⟨rfl, by rw [hf]; exact h2⟩⟩
      · obtain ⟨i, rfl⟩ := hnodes v hm.2 h1
        exact ⟨i, Or.inr ⟨rfl, by rw [hf]; exact h2⟩⟩

/-- **Matrix-tree theorem**: the determinant of the Laplacian without the root is the number of spanning trees. -/
theorem matrix_tree (hG : G.WF) (hl : Listing G nd) : (laplaceOf (nbrs G nd)).det = ((treeSets G).card : ℤ) := by
  classical
  rw [det_laplaceOf]
  congr 1
  refine Finset.card_bij (fun f _ => parentEdges G nd f) ?_ ?_ ?_
  · intro f hf
    obtain ⟨h1, h2⟩ := Finset.mem_filter.1 hf
    exact parentEdges_tree hG hl (fun i => Fintype.mem_piFinset.1 h1 i) h2
  · intro f hf f' hf' h
    obtain ⟨h1, h2⟩ := Finset.mem_filter.1 hf
    obtain ⟨h1', -⟩ := Finset.mem_filter.1 hf'
    exact parentEdges_inj hl (fun i => Fintype.mem_piFinset.1 h1 i) (fun i => Fintype.mem_piFinset.1 h1' i) h2 h
  · intro E hE
    obtain ⟨f, h1, h2, h3⟩ := parentEdges_surj hG hl hE
    exact ⟨f, Finset.mem_filter.2 ⟨Fintype.mem_piFinset.2 h1, h2⟩, h3⟩

end

end GC

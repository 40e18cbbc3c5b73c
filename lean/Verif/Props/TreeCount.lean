import Verif.Model.TreeCount
import Verif.Lemmas.Kirchhoff

/-!
# `num_spanning_trees` counts spanning trees (C72)
-/

set_option linter.unusedSectionVars false
set_option autoImplicit false

namespace GC

open Matrix

variable {V P : Type} [LinearOrder V] [DecidableEq P]

/-- no edge has an attribute `weight` -/
def noWeight : V × V → Option ℚ := fun _ => none

theorem adjEntry_noWeight (G : Graph V) (u v : V) : adjEntry G noWeight u v = if G.Adj u v then 1 else 0 := by
  unfold adjEntry noWeight Graph.Adj
  by_cases h1 : (u, v) ∈ G.edges
  · simp [h1]
  · by_cases h2 : (v, u) ∈ G.edges <;> simp [h1, h2]

theorem laplacian_row_sum (G : Graph V) (weight : V × V → Option ℚ) (l : List V) (i : Fin l.length) :
    ∑ j, laplacianMatrix G weight l i j = 0 := by
  unfold laplacianMatrix
  rw [Finset.sum_sub_distrib, Finset.sum_ite_eq, if_pos (Finset.mem_univ _), sub_self]

/-- the matrix that replaces the first column by minus the sum of all columns -/
def columnSwap (k : ℕ) : Matrix (Fin (k + 1)) (Fin (k + 1)) ℚ := fun i j => if j = 0 then -1 else if i = j then 1 else 0

theorem det_columnSwap (k : ℕ) : (columnSwap k).det = -1 := by
  have ht : (columnSwap k).BlockTriangular OrderDual.toDual := by
    intro i j hij
    have hij : i < j := hij
    unfold columnSwap
    rw [if_neg (by rintro rfl; exact absurd hij (Fin.not_lt_zero _)), if_neg hij.ne]
  rw [Matrix.det_of_isLowerTriangular _ ht, Fin.prod_univ_succ]
  simp [columnSwap, Fin.succ_ne_zero]

/-- Removing column 1 instead of column 0 changes only the sign of the determinant, if all row sums are 0. -/
theorem det_minor (k : ℕ) (L : Matrix (Fin (k + 2)) (Fin (k + 2)) ℚ) (h : ∀ i, ∑ j, L i j = 0) :
    (L.submatrix (Fin.succAbove 0) (Fin.succAbove 1)).det = -(L.submatrix (Fin.succAbove 0) (Fin.succAbove 0)).det := by
  have hm : L.submatrix (Fin.succAbove 0) (Fin.succAbove 1) = L.submatrix (Fin.succAbove 0) (Fin.succAbove 0) * columnSwap k := by
    ext i j
    rw [Matrix.mul_apply]
    simp only [Matrix.submatrix_apply, Fin.succAbove_zero, columnSwap]
    refine Fin.cases ?_ (fun j => ?_) j
    · have := h i.succ
      rw [Fin.sum_univ_succ] at this
      simp only [if_true, mul_neg, mul_one, Finset.sum_neg_distrib]
      have h0 : Fin.succAbove (1 : Fin (k + 2)) 0 = 0 := by rfl
      rw [h0]
      linarith
    · have h1 : Fin.succAbove (1 : Fin (k + 2)) j.succ = j.succ.succ := by
        rw [← Fin.succ_zero_eq_one, Fin.succ_succAbove_succ, Fin.succAbove_zero]
      rw [h1]
      simp [Fin.succ_ne_zero]
  rw [hm, Matrix.det_mul, det_columnSwap]
  ring

theorem det_laplacian_minor {G : Graph V} (hG : G.WF) (a b : V) (rest : List V) (hn : (a :: b :: rest).Nodup)
    (hl : (a :: b :: rest).toFinset = G.nodes) :
    ((laplacianMatrix G noWeight (a :: b :: rest)).submatrix (Fin.succAbove (0 : Fin (rest.length + 2))) (Fin.succAbove 0)).det =
      ((treeSets G).card : ℚ) := by
  let nd : Option (Fin (rest.length + 1)) → V := fun o => match o with
    | none => a
    | some i => (a :: b :: rest).get i.succ
  have hlist : Listing G nd := by
    constructor
    · have h1 : ∀ i : Fin (rest.length + 1), a ≠ (a :: b :: rest).get i.succ := fun i h =>
        (Fin.succ_ne_zero i).symm (hn.injective_get (a₁ := (0 : Fin (rest.length + 2))) (a₂ := i.succ) h)
      rintro (_ | i) (_ | j) h
      · rfl
      · exact absurd h (h1 j)
      · exact absurd h.symm (h1 i)
      · exact congrArg some (Fin.succ_injective _ (hn.injective_get h))
    · intro v
      rw [← hl, List.mem_toFinset]
      constructor
      · intro h
        obtain ⟨i, hi⟩ := List.get_of_mem h
        revert hi
        refine Fin.cases (fun hi => ⟨none, hi⟩) (fun i hi => ⟨some i, hi⟩) i
      · rintro ⟨_ | i, rfl⟩
        · exact List.mem_cons_self
        · exact List.get_mem _ _
  have hm : (laplacianMatrix G noWeight (a :: b :: rest)).submatrix (Fin.succAbove (0 : Fin (rest.length + 2))) (Fin.succAbove 0) =
      (Int.castRingHom ℚ).mapMatrix (laplaceOf (nbrs G nd)) := by
    refine Matrix.ext (fun (i j : Fin (rest.length + 1)) => ?_)
    simp only [Matrix.submatrix_apply, Fin.succAbove_zero, RingHom.mapMatrix_apply, Matrix.map_apply, laplacianMatrix, laplaceOf,
      adjEntry_noWeight, Fin.succ_inj]
    have hself : ∀ i j : Fin (rest.length + 1), i ≠ j → (some j ∈ nbrs G nd i ↔ G.Adj ((a :: b :: rest).get i.succ) ((a :: b :: rest).get j.succ)) := by
      intro i j hij
      simp only [nbrs, Finset.mem_filter, Finset.mem_univ, true_and, nd, ne_eq, Option.some.injEq, hij.symm, not_false_eq_true]
    by_cases hij : i = j
    · subst hij
      have hno : some i ∉ nbrs G nd i := by simp [nbrs]
      rw [if_pos rfl, if_pos rfl, if_neg hno]
      have hcard : ((nbrs G nd i).card : ℚ) = (if G.Adj ((a :: b :: rest).get i.succ) a then 1 else 0) +
          ∑ k ∈ Finset.univ.erase i, (if G.Adj ((a :: b :: rest).get i.succ) ((a :: b :: rest).get k.succ) then (1 : ℚ) else 0) := by
        unfold nbrs
        rw [Finset.card_filter]
        push_cast
        rw [Fintype.sum_option]
        congr 1
        · simp [nd]
        · rw [← Finset.add_sum_erase _ _ (Finset.mem_univ i)]
          rw [if_neg (by simp), zero_add]
          refine Finset.sum_congr rfl (fun k hk => ?_)
          have := (Finset.mem_erase.1 hk).1
          simp [nd, this]
      have hsum : (∑ k : Fin (a :: b :: rest).length, if G.Adj ((a :: b :: rest).get i.succ) ((a :: b :: rest).get k) then (1 : ℚ) else 0) =
          (if G.Adj ((a :: b :: rest).get i.succ) a then 1 else 0) + ((if G.Adj ((a :: b :: rest).get i.succ) ((a :: b :: rest).get i.succ) then 1 else 0) +
          ∑ k ∈ Finset.univ.erase i, (if G.Adj ((a :: b :: rest).get i.succ) ((a :: b :: rest).get k.succ) then (1 : ℚ) else 0)) := by
        have h3 := Finset.add_sum_erase Finset.univ
          (fun k : Fin (rest.length + 1) => if G.Adj ((a :: b :: rest).get i.succ) ((a :: b :: rest).get k.succ) then (1 : ℚ) else 0) (Finset.mem_univ i)
        refine (Fin.sum_univ_succ (n := rest.length + 1) _).trans ?_
        exact congrArg _ h3.symm
      rw [hsum]
      simp only [sub_zero, eq_intCast, Int.cast_natCast, hcard]
      ring
    · rw [if_neg hij, if_neg hij]
      have := hself i j hij
      by_cases h : some j ∈ nbrs G nd i
      · rw [if_pos h, if_pos (this.1 h)]
        simp
      · rw [if_neg h, if_neg (fun h' => h (this.2 h'))]
        simp
  rw [hm, ← RingHom.map_det, matrix_tree hG hlist]
  simp

/-- The function computes the number of spanning trees of a graph with at least two nodes, whatever the order in which the nodes are listed; it raises
`OverflowError` when the number is not less than `2 ^ 1024`. -/
theorem C72_district {G : Graph V} (hG : G.WF) (l : List V) (hn : l.Nodup) (hl : l.toFinset = G.nodes) (h2 : 2 ≤ G.nodes.card) :
    treesInDistrict G noWeight l = if 2 ^ 1024 ≤ (treeSets G).card then .error .overflowError else .ok ((treeSets G).card : ℚ) := by
  have hlen : l.length = G.nodes.card := by rw [← hl, List.toFinset_card_of_nodup hn]
  match l, hn, hl, hlen with
  | [], _, _, hlen => simp at hlen; omega
  | [_], _, _, hlen => simp at hlen; omega
  | a :: b :: rest, hn, hl, _ =>
    show expSlogdet _ = _
    rw [det_minor _ _ (laplacian_row_sum G noWeight (a :: b :: rest)), det_laplacian_minor hG a b rest hn hl]
    unfold expSlogdet
    have habs : |(-((treeSets G).card : ℚ))| = ((treeSets G).card : ℚ) := by rw [abs_neg, abs_of_nonneg (Nat.cast_nonneg _)]
    rw [habs]
    have : ((2 : ℚ) ^ 1024 ≤ ((treeSets G).card : ℚ)) ↔ (2 ^ 1024 ≤ (treeSets G).card) := by
      rw [← Nat.cast_le (α := ℚ)]
      push_cast
      rfl
    by_cases h : 2 ^ 1024 ≤ (treeSets G).card
    · rw [if_pos h, if_pos (this.2 h)]
    · rw [if_neg h, if_neg (fun h' => h (this.1 h'))]

theorem treesFold_ok {G : Graph V} (hG : G.WF) : ∀ (l : List (P × Finset V)) (d0 : Dict P ℚ),
    (∀ e ∈ l, e.2 ⊆ G.nodes ∧ 2 ≤ e.2.card ∧ numTrees G e.2 < 2 ^ 1024) →
    l.foldlM (fun (d : Dict P ℚ) (e : P × Finset V) => do
      let n ← treesInDistrict (G.subgraph e.2) noWeight (iter (G.subgraph e.2).nodes)
      return d.set e.1 n) d0 = .ok (l.foldl (fun d e => d.set e.1 (numTrees G e.2 : ℚ)) d0) := by
  intro l
  induction l with
  | nil => intro d0 _; rfl
  | cons e l ih =>
    intro d0 h
    obtain ⟨h1, h2, h3⟩ := h e List.mem_cons_self
    have h4 := C72_district (hG.subgraph e.2) (iter (G.subgraph e.2).nodes) (nodup_iter _) (toFinset_iter _)
      (by rw [subgraph_nodes h1]; exact h2)
    unfold numTrees at h3
    rw [if_neg (not_le.2 h3)] at h4
    rw [List.foldlM_cons, h4]
    exact ih _ (fun e' he' => h e' (List.mem_cons_of_mem _ he'))

/-- **C72** `num_spanning_trees` reports the number of spanning trees of every district, provided that the districts have at least two nodes, that the
numbers are less than `2 ^ 1024` and that the edges have no attribute `weight`.  (Districts that are not connected have none.) -/
theorem C72_num_spanning_trees_partial {G : Graph V} (hG : G.WF) (parts : Dict P (Finset V)) (hwf : parts.WF)
    (hsub : ∀ p s, parts.get? p = some s → s ⊆ G.nodes) (h2 : ∀ p s, parts.get? p = some s → 2 ≤ s.card)
    (hsmall : ∀ p s, parts.get? p = some s → numTrees G s < 2 ^ 1024) :
    ∃ d, numSpanningTrees G noWeight parts = .ok d ∧ ∀ p, d.get? p = (parts.get? p).map (fun s => (numTrees G s : ℚ)) := by
  have hmem : ∀ e ∈ parts.entries, parts.get? e.1 = some e.2 := fun e he => Dict.get?_of_mem_entries hwf he
  refine ⟨_, treesFold_ok hG parts.entries Dict.empty (fun e he => ⟨hsub _ _ (hmem e he), h2 _ _ (hmem e he), hsmall _ _ (hmem e he)⟩), fun p => ?_⟩
  have key : ∀ (l : List (P × Finset V)) (d0 : Dict P ℚ), (l.map (·.1)).Nodup →
      (l.foldl (fun d e => d.set e.1 (numTrees G e.2 : ℚ)) d0).get? p =
        ((l.find? (fun e => e.1 = p)).map (fun e => (numTrees G e.2 : ℚ))).or (d0.get? p) := by
    intro l
    induction l with
    | nil => intro d0 _; simp
    | cons e l ih =>
      intro d0 hnd
      rw [List.map_cons, List.nodup_cons] at hnd
      rw [List.foldl_cons, ih _ hnd.2]
      by_cases hp : e.1 = p
      · have hnone : l.find? (fun e => e.1 = p) = none := by
          rw [List.find?_eq_none]
          intro x hx hxp
          rw [decide_eq_true_eq] at hxp
          exact hnd.1 (List.mem_map.2 ⟨x, hx, hxp.trans hp.symm⟩)
        rw [hnone, List.find?_cons_of_pos (by simpa using hp), ← hp, Dict.get?_set_self]
        rfl
      · rw [List.find?_cons_of_neg (by simpa using hp), Dict.get?_set_ne _ _ (fun h => hp h.symm)]
  rw [key _ _ hwf]
  have he : (Dict.empty : Dict P ℚ).get? p = none := rfl
  rw [he, Option.or_none]
  unfold Dict.get?
  rw [Option.map_map]
  rfl

/-- **C72** is false for a district of a single node: it has one spanning tree, but the function raises `IndexError` (whatever the weights). -/
theorem C72_single_node_violation (G : Graph V) (v : V) (hv : v ∈ G.nodes) (weight : V × V → Option ℚ) (parts : Dict P (Finset V))
    (p : P) (hp : parts.entries.head? = some (p, {v})) :
    numTrees G {v} = 1 ∧ numSpanningTrees G weight parts = .error .indexError := by
  have hs : ({v} : Finset V) ⊆ G.nodes := Finset.singleton_subset_iff.2 hv
  constructor
  · unfold numTrees
    have : treeSets (G.subgraph {v}) = {∅} := by
      ext E
      rw [mem_treeSets hs, Finset.mem_singleton]
      constructor
      · rintro ⟨-, h⟩
        have := h.card
        simp only [Finset.card_singleton] at this
        exact Finset.card_eq_zero.1 (by omega)
      · rintro rfl
        refine ⟨fun e he => absurd he (Finset.notMem_empty _), ⟨?_, ?_, ?_⟩⟩
        · constructor <;> intro e he <;> exact absurd he (Finset.notMem_empty _)
        · refine ⟨Finset.singleton_nonempty v, fun a ha b hb => ?_⟩
          rw [Finset.mem_singleton.1 ha, Finset.mem_singleton.1 hb]
          exact Relation.ReflTransGen.refl
        · rfl
    rw [this, Finset.card_singleton]
  · unfold numSpanningTrees
    obtain ⟨l⟩ := parts
    rcases l with _ | ⟨e, l⟩
    · cases hp
    · simp only [List.head?_cons, Option.some.injEq] at hp
      subst hp
      have h1 : iter (G.subgraph {v}).nodes = [v] := by
        rw [subgraph_nodes hs]; rfl
      rw [List.foldlM_cons]
      simp only [h1]
      rfl

/-- A square with a diagonal, and a fifth node -/
def houseGraph : Graph ℕ := ⟨{0, 1, 2, 3, 4, 5}, {(0, 1), (1, 2), (2, 3), (0, 3), (0, 2), (3, 4), (4, 5)}⟩

/-- Two districts: the square with its diagonal, and an edge -/
def houseParts : Dict ℕ (Finset ℕ) := ⟨[(1, {0, 1, 2, 3}), (2, {4, 5})]⟩

theorem houseGraph_wf : houseGraph.WF := ⟨by decide, by decide, by decide⟩

/-- the square with its diagonal has eight spanning trees -/
theorem house_trees : (treeSets (houseGraph.subgraph {0, 1, 2, 3})).card = 8 := by
  have h := det_laplacian_minor (houseGraph_wf.subgraph {0, 1, 2, 3}) 0 1 [2, 3] (by decide) (by decide)
  have h' : ((laplacianMatrix (houseGraph.subgraph {0, 1, 2, 3}) noWeight [0, 1, 2, 3]).submatrix (Fin.succAbove (0 : Fin 4)) (Fin.succAbove 0)) =
      !![2, -1, 0; -1, 3, -1; 0, -1, 2] := by decide +kernel
  have h2 : (8 : ℚ) = ((treeSets (houseGraph.subgraph {0, 1, 2, 3})).card : ℚ) := by
    rw [← h]
    refine Eq.trans ?_ (congrArg Matrix.det h').symm
    rw [Matrix.det_fin_three]
    simp [Matrix.of_apply]
    norm_num
  exact_mod_cast h2.symm

example : ∃ d, numSpanningTrees houseGraph noWeight houseParts = .ok d ∧
    ∀ p, d.get? p = (houseParts.get? p).map (fun s => (numTrees houseGraph s : ℚ)) := by
  have hcase : ∀ p s, houseParts.get? p = some s → s = {0, 1, 2, 3} ∨ s = {4, 5} := by
    intro p s h
    have := Dict.mem_entries_of_get? h
    simp only [houseParts, List.mem_cons, Prod.mk.injEq, List.not_mem_nil, or_false] at this
    rcases this with h | h
    · exact Or.inl h.2
    · exact Or.inr h.2
  have h45 : numTrees houseGraph {4, 5} ≤ 2 := by
    classical
    unfold numTrees treeSets
    refine (Finset.card_filter_le _ _).trans ?_
    rw [Finset.card_powerset]
    decide
  refine C72_num_spanning_trees_partial houseGraph_wf houseParts (by unfold Dict.WF; decide) ?_ ?_ ?_
  · intro p s h
    rcases hcase p s h with rfl | rfl <;> decide
  · intro p s h
    rcases hcase p s h with rfl | rfl <;> decide
  · intro p s h
    rcases hcase p s h with rfl | rfl
    · have : numTrees houseGraph {0, 1, 2, 3} = 8 := house_trees
      rw [this]
      exact lt_of_lt_of_le (by norm_num : 8 < 2 ^ 4) (Nat.pow_le_pow_right (by norm_num) (by norm_num))
    · exact lt_of_le_of_lt h45 (lt_of_lt_of_le (by norm_num : 2 < 2 ^ 4) (Nat.pow_le_pow_right (by norm_num) (by norm_num)))

/-- An edge with an attribute `weight`, as left behind by `spectral_recom(weight_type="random")`, changes the count: one edge of weight 1/2. -/
theorem C72_weight_violation : treesInDistrict (⟨{0, 1}, {(0, 1)}⟩ : Graph ℕ) (fun _ => some (1 / 2)) [0, 1] = .ok (1 / 2) := by
  have h : ((laplacianMatrix (⟨{0, 1}, {(0, 1)}⟩ : Graph ℕ) (fun _ => some (1 / 2)) [0, 1]).submatrix (Fin.succAbove (0 : Fin 2)) (Fin.succAbove 1)) =
      !![-(1 / 2)] := by decide +kernel
  show expSlogdet _ = _
  refine (congrArg (fun m => expSlogdet (Matrix.det m)) h).trans ?_
  rw [Matrix.det_fin_one]
  unfold expSlogdet
  simp only [Matrix.of_apply, Matrix.cons_val_zero, Matrix.cons_val', Matrix.cons_val_fin_one]
  have h1 : |(-(1 / 2) : ℚ)| = 1 / 2 := by norm_num
  have h2 : (1 : ℚ) ≤ 2 ^ 1024 := one_le_pow₀ (by norm_num)
  rw [h1, if_neg (not_le.2 (lt_of_lt_of_le (by norm_num) h2))]

end GC

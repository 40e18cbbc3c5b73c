import Verif.Model.Grid
import Verif.Spec.Contiguity
import Verif.Props.Updaters
import Verif.Lemmas.Election
import Mathlib.Algebra.BigOperators.Ring.Finset
import Mathlib.Algebra.BigOperators.Intervals
import Mathlib.Tactic.Ring
import Mathlib.Tactic.Linarith

/-!
# Grid graphs (C53, C69, C70)
-/

set_option linter.unusedSectionVars false
set_option autoImplicit false

namespace GC

@[simp] theorem cell_x (i j : ℕ) : (cell i j).x = i := rfl
@[simp] theorem cell_y (i j : ℕ) : (cell i j).y = j := rfl
@[simp] theorem cell_eta (c : Cell) : cell c.x c.y = c := rfl

theorem cell_inj {i j i' j' : ℕ} : cell i j = cell i' j' ↔ i = i' ∧ j = j' := by
  constructor
  · intro h
    exact ⟨congrArg Cell.x h, congrArg Cell.y h⟩
  · rintro ⟨rfl, rfl⟩; rfl

theorem cell_le {i j i' j' : ℕ} : cell i j ≤ cell i' j' ↔ i < i' ∨ i = i' ∧ j ≤ j' := by
  unfold cell
  rw [Prod.Lex.toLex_le_toLex]

@[simp] theorem mem_gridNodes {m n : ℕ} {c : Cell} : c ∈ gridNodes m n ↔ c.x < m ∧ c.y < n := by
  unfold gridNodes
  simp only [Finset.mem_image, Finset.mem_product, Finset.mem_range]
  constructor
  · rintro ⟨⟨i, j⟩, h, rfl⟩; exact h
  · intro h; exact ⟨(c.x, c.y), h, rfl⟩

theorem mem_gridVertical {m n : ℕ} {c d : Cell} : (c, d) ∈ gridVertical m n ↔ c.x + 1 = d.x ∧ c.y = d.y ∧ d.x < m ∧ c.y < n := by
  unfold gridVertical
  simp only [Finset.mem_image, Finset.mem_product, Finset.mem_range, Prod.mk.injEq, Prod.exists]
  constructor
  · rintro ⟨i, j, h, rfl, rfl⟩
    simp only [cell_x, cell_y, true_and]
    omega
  · rintro ⟨h1, h2, h3, h4⟩
    refine ⟨c.x, c.y, by omega, rfl, ?_⟩
    rw [h1, h2]
    rfl

theorem mem_gridHorizontal {m n : ℕ} {c d : Cell} : (c, d) ∈ gridHorizontal m n ↔ c.x = d.x ∧ c.y + 1 = d.y ∧ c.x < m ∧ d.y < n := by
  unfold gridHorizontal
  simp only [Finset.mem_image, Finset.mem_product, Finset.mem_range, Prod.mk.injEq, Prod.exists]
  constructor
  · rintro ⟨i, j, h, rfl, rfl⟩
    simp only [cell_x, cell_y, true_and]
    omega
  · rintro ⟨h1, h2, h3, h4⟩
    refine ⟨c.x, c.y, by omega, rfl, ?_⟩
    rw [h1, h2]
    rfl

theorem mem_gridDiagonal {m n : ℕ} {c d : Cell} : (c, d) ∈ gridDiagonal m n ↔
    c.x + 1 = d.x ∧ (c.y + 1 = d.y ∨ c.y = d.y + 1) ∧ d.x < m ∧ c.y < n ∧ d.y < n := by
  unfold gridDiagonal gridNwSe gridSwNe
  simp only [Finset.mem_union, Finset.mem_image, Finset.mem_product, Finset.mem_range, Prod.mk.injEq, Prod.exists]
  constructor
  · rintro (⟨i, j, h, rfl, rfl⟩ | ⟨i, j, h, rfl, rfl⟩) <;> simp only [cell_x, cell_y, true_and, true_or, or_true] <;> omega
  · rintro ⟨h1, h2 | h2, h3, h4, h5⟩
    · refine .inl ⟨c.x, c.y, by omega, rfl, ?_⟩
      rw [h1, h2]; rfl
    · refine .inr ⟨c.x, d.y, by omega, ?_, ?_⟩
      · rw [← h2]; rfl
      · rw [h1]; rfl

/-- the edges: one coordinate differs by 1, or with diagonals both do -/
def GridNear (diagonals : Bool) (c d : Cell) : Prop :=
  (c.x + 1 = d.x ∧ c.y = d.y) ∨ (c.x = d.x ∧ c.y + 1 = d.y) ∨ (diagonals = true ∧ c.x + 1 = d.x ∧ (c.y + 1 = d.y ∨ c.y = d.y + 1))

theorem mem_gridEdges {m n : ℕ} {diagonals : Bool} {c d : Cell} : (c, d) ∈ (gridGraph m n diagonals).edges ↔
    c ∈ gridNodes m n ∧ d ∈ gridNodes m n ∧ GridNear diagonals c d := by
  unfold gridGraph GridNear
  simp only [Finset.mem_union, mem_gridVertical, mem_gridHorizontal, mem_gridNodes]
  rcases diagonals with _ | _
  · simp only [Bool.false_eq_true, if_false, Finset.notMem_empty, or_false, false_and]
    omega
  · simp only [if_true, mem_gridDiagonal, true_and]
    omega

theorem gridGraph_wf (m n : ℕ) (diagonals : Bool) : (gridGraph m n diagonals).WF := by
  constructor
  · rintro ⟨c, d⟩ h; exact (mem_gridEdges.1 h).1
  · rintro ⟨c, d⟩ h; exact (mem_gridEdges.1 h).2.1
  · rintro ⟨c, d⟩ h - h'
    have h1 := (mem_gridEdges.1 h).2.2
    have h2 := (mem_gridEdges.1 h').2.2
    unfold GridNear at h1 h2
    simp only at h1 h2
    omega

/-! ### Boundary -/

/-- Two cells share a side. -/
def Touch (c d : Cell) : Prop :=
  (c.x = d.x ∧ (c.y + 1 = d.y ∨ d.y + 1 = c.y)) ∨ (c.y = d.y ∧ (c.x + 1 = d.x ∨ d.x + 1 = c.x))

/-- number of the four sides of a cell behind which there is no cell of `s` (also none if the other cell would have a negative coordinate) -/
def openSides (s : Finset Cell) (c : Cell) : ℕ :=
  (if c.x = 0 ∨ cell (c.x - 1) c.y ∉ s then 1 else 0) + (if cell (c.x + 1) c.y ∉ s then 1 else 0) +
  (if c.y = 0 ∨ cell c.x (c.y - 1) ∉ s then 1 else 0) + (if cell c.x (c.y + 1) ∉ s then 1 else 0)

/-- geometric perimeter of a set of unit squares -/
def geomPerimeter (s : Finset Cell) : ℕ := ∑ c ∈ s, openSides s c

/-- **C53** The nodes are the cells of the `m` × `n` rectangle; without diagonals two nodes are adjacent exactly when the cells share a side; with
diagonals also when they share only a corner. -/
theorem C53_graph (m n : ℕ) (diagonals : Bool) :
    (∀ c, c ∈ (gridGraph m n diagonals).nodes ↔ c.x < m ∧ c.y < n) ∧
    ∀ c d, (gridGraph m n diagonals).Adj c d ↔ (c.x < m ∧ c.y < n) ∧ (d.x < m ∧ d.y < n) ∧
      (Touch c d ∨ (diagonals = true ∧ (c.x + 1 = d.x ∨ d.x + 1 = c.x) ∧ (c.y + 1 = d.y ∨ d.y + 1 = c.y))) := by
  refine ⟨fun c => mem_gridNodes, fun c d => ?_⟩
  unfold Graph.Adj
  rw [mem_gridEdges, mem_gridEdges]
  unfold GridNear Touch
  simp only [mem_gridNodes]
  rcases diagonals with _ | _ <;> simp only [Bool.false_eq_true, false_and, or_false, true_and] <;> omega

/-- **C53** A cell of the grid is marked as a boundary node exactly when one of its sides is on the outside of the grid. -/
theorem C53_boundary_nodes (m n : ℕ) (diagonals : Bool) (c : Cell) (hc : c ∈ (gridGraph m n diagonals).nodes) :
    (gridData m n diagonals).boundaryNode c = true ↔ 0 < openSides (gridGraph m n diagonals).nodes c := by
  have hc' : c.x < m ∧ c.y < n := mem_gridNodes.1 hc
  show gridBoundaryNode m n c = true ↔ 0 < openSides (gridNodes m n) c
  unfold gridBoundaryNode openSides
  simp only [decide_eq_true_eq, mem_gridNodes, cell_x, cell_y]
  split_ifs <;> omega

/-- **C53** With at least two rows and columns, the `boundary_perim` of a boundary node is its number of sides on the outside. -/
theorem C53_boundary_perim (m n : ℕ) (hm : 2 ≤ m) (hn : 2 ≤ n) (diagonals : Bool) (c : Cell)
    (hc : c ∈ (gridGraph m n diagonals).nodes) :
    (gridData m n diagonals).boundaryPerim c = openSides (gridGraph m n diagonals).nodes c := by
  have hc' : c.x < m ∧ c.y < n := mem_gridNodes.1 hc
  show getBoundaryPerim m n c = (openSides (gridNodes m n) c : ℕ)
  unfold getBoundaryPerim openSides
  simp only [mem_gridNodes, cell_x, cell_y]
  split_ifs <;> first | (exfalso; omega) | norm_num

/-! ### Perimeter -/

/-- In one line of cells: outer ends plus changes between consecutive cells are the open sides. -/
theorem line_sides (m : ℕ) (f : ℕ → Bool) (hf : f m = false) :
    (∑ i ∈ Finset.range m, if f i = true then (if i = 0 then 1 else 0) + (if i + 1 = m then 1 else 0) else 0) +
      (∑ i ∈ Finset.range (m - 1), if f i ≠ f (i + 1) then 1 else 0) =
    ∑ i ∈ Finset.range m, if f i = true then (if i = 0 ∨ f (i - 1) = false then 1 else 0) + (if f (i + 1) = false then 1 else 0) else (0 : ℕ) := by
  rcases m with _ | k
  · rfl
  have e1 : (∑ i ∈ Finset.range (k + 1), if f i = true then (if i = 0 then 1 else 0) + (if i + 1 = k + 1 then 1 else 0) else 0) =
      (if f 0 = true then 1 else 0) + (if f k = true then 1 else (0 : ℕ)) := by
    have : ∀ i ∈ Finset.range (k + 1), (if f i = true then (if i = 0 then 1 else 0) + (if i + 1 = k + 1 then 1 else 0) else 0) =
        (if i = 0 then (if f 0 = true then 1 else 0) else 0) + (if i = k then (if f k = true then 1 else 0) else (0 : ℕ)) := by
      intro i _
      by_cases h0 : i = 0 <;> by_cases hk : i = k
      · subst h0; subst hk; cases f 0 <;> simp
      · subst h0; cases f 0 <;> simp [hk, Ne.symm hk]
      · subst hk; cases f i <;> simp [h0]
      · cases f i <;> simp [h0, hk]
    rw [Finset.sum_congr rfl this, Finset.sum_add_distrib, Finset.sum_ite_eq', Finset.sum_ite_eq']
    simp
  have e2 : (∑ i ∈ Finset.range (k + 1), if f i = true then (if i = 0 ∨ f (i - 1) = false then 1 else 0) +
        (if f (i + 1) = false then 1 else 0) else (0 : ℕ)) =
      (∑ i ∈ Finset.range (k + 1), if f i = true ∧ (i = 0 ∨ f (i - 1) = false) then 1 else 0) +
      ∑ i ∈ Finset.range (k + 1), if f i = true ∧ f (i + 1) = false then 1 else (0 : ℕ) := by
    rw [← Finset.sum_add_distrib]
    apply Finset.sum_congr rfl
    intro i _
    cases f i <;> simp
  rw [e1, e2, Finset.sum_range_succ' (fun i => if f i = true ∧ (i = 0 ∨ f (i - 1) = false) then 1 else 0),
    Finset.sum_range_succ (fun i => if f i = true ∧ f (i + 1) = false then 1 else 0)]
  have e3 : (∑ i ∈ Finset.range (k + 1 - 1), if f i ≠ f (i + 1) then 1 else 0) =
      (∑ i ∈ Finset.range k, if f (i + 1) = true ∧ (i + 1 = 0 ∨ f (i + 1 - 1) = false) then 1 else 0) +
      ∑ i ∈ Finset.range k, if f i = true ∧ f (i + 1) = false then 1 else (0 : ℕ) := by
    rw [← Finset.sum_add_distrib]
    apply Finset.sum_congr rfl
    intro i _
    simp only [Nat.add_sub_cancel, Nat.succ_ne_zero, false_or]
    cases f i <;> cases f (i + 1) <;> simp
  rw [e3]
  simp only [true_or, and_true, hf]
  omega

theorem sum_district {m n : ℕ} {s : Finset Cell} (hs : s ⊆ gridNodes m n) (g : Cell → ℕ) :
    ∑ c ∈ s, g c = ∑ i ∈ Finset.range m, ∑ j ∈ Finset.range n, if cell i j ∈ s then g (cell i j) else 0 := by
  have h1 : ∑ c ∈ s, g c = ∑ c ∈ gridNodes m n, if c ∈ s then g c else 0 := by
    rw [← Finset.sum_filter]
    congr 1
    ext c
    rw [Finset.mem_filter]
    exact ⟨fun h => ⟨hs h, h⟩, And.right⟩
  rw [h1]
  unfold gridNodes
  rw [Finset.sum_image (fun a _ b _ h => toLex.injective h), Finset.sum_product]
  rfl

/-- cut sides of `s`: pairs of neighbouring cells of the grid, one in `s` and one not -/
theorem geomPerimeter_eq {m n : ℕ} {s : Finset Cell} (hs : s ⊆ gridNodes m n) :
    geomPerimeter s = (∑ c ∈ s, ((if c.x = 0 then 1 else 0) + (if c.x + 1 = m then 1 else 0) +
        ((if c.y = 0 then 1 else 0) + (if c.y + 1 = n then 1 else 0)))) +
      ((∑ i ∈ Finset.range (m - 1), ∑ j ∈ Finset.range n, if decide (cell i j ∈ s) ≠ decide (cell (i + 1) j ∈ s) then 1 else 0) +
      ∑ i ∈ Finset.range m, ∑ j ∈ Finset.range (n - 1), if decide (cell i j ∈ s) ≠ decide (cell i (j + 1) ∈ s) then 1 else 0) := by
  have hout1 : ∀ j, decide (cell m j ∈ s) = false := by
    intro j
    rw [decide_eq_false_iff_not]
    intro h
    have := mem_gridNodes.1 (hs h)
    simp at this
  have hout2 : ∀ i, decide (cell i n ∈ s) = false := by
    intro i
    rw [decide_eq_false_iff_not]
    intro h
    have := mem_gridNodes.1 (hs h)
    simp at this
  have hx := Finset.sum_congr (rfl : Finset.range n = Finset.range n) (fun j _ => line_sides m (fun i => decide (cell i j ∈ s)) (hout1 j))
  have hy := Finset.sum_congr (rfl : Finset.range m = Finset.range m) (fun i _ => line_sides n (fun j => decide (cell i j ∈ s)) (hout2 i))
  rw [Finset.sum_add_distrib] at hx hy
  rw [Finset.sum_comm, Finset.sum_comm (s := Finset.range n) (t := Finset.range (m - 1)),
    Finset.sum_comm (s := Finset.range n) (t := Finset.range m)] at hx
  unfold geomPerimeter
  rw [sum_district hs, Finset.sum_add_distrib, sum_district hs, sum_district hs]
  have split : (∑ i ∈ Finset.range m, ∑ j ∈ Finset.range n, if cell i j ∈ s then openSides s (cell i j) else 0) =
      (∑ i ∈ Finset.range m, ∑ j ∈ Finset.range n, if decide (cell i j ∈ s) = true then
        (if i = 0 ∨ decide (cell (i - 1) j ∈ s) = false then 1 else 0) + (if decide (cell (i + 1) j ∈ s) = false then 1 else 0) else 0) +
      ∑ i ∈ Finset.range m, ∑ j ∈ Finset.range n, if decide (cell i j ∈ s) = true then
        (if j = 0 ∨ decide (cell i (j - 1) ∈ s) = false then 1 else 0) + (if decide (cell i (j + 1) ∈ s) = false then 1 else 0) else 0 := by
    rw [← Finset.sum_add_distrib]
    apply Finset.sum_congr rfl
    intro i _
    rw [← Finset.sum_add_distrib]
    apply Finset.sum_congr rfl
    intro j _
    unfold openSides
    simp only [cell_x, cell_y, decide_eq_true_eq, decide_eq_false_iff_not]
    split
    · rw [add_assoc]
      congr
    · rfl
  rw [split]
  simp only [decide_eq_true_eq, cell_x, cell_y] at hx hy ⊢
  rw [← hx, ← hy, add_add_add_comm]
  congr

theorem sortPair_grid {m n : ℕ} {diagonals : Bool} {e : Cell × Cell} (he : e ∈ (gridGraph m n diagonals).edges) : sortPair e = e := by
  have h := (mem_gridEdges (c := e.1) (d := e.2)).1 he
  unfold sortPair
  rw [if_pos]
  have : cell e.1.x e.1.y ≤ cell e.2.x e.2.y := by
    rw [cell_le]
    have := h.2.2
    unfold GridNear at this
    omega
  exact this

/-- The interior boundary: `shared_perim` summed over the cut edges of a district. -/
theorem grid_interior {P : Type} [DecidableEq P] {m n : ℕ} {diagonals : Bool} {map : Dict Cell P} {p : P} {s : Finset Cell}
    (hs : ∀ c, c ∈ s ↔ map.get? c = some p) :
    ∑ e ∈ cutsTouching (gridGraph m n diagonals) map p, (gridData m n diagonals).sharedPerim e =
      (((∑ i ∈ Finset.range (m - 1), ∑ j ∈ Finset.range n, if decide (cell i j ∈ s) ≠ decide (cell (i + 1) j ∈ s) then 1 else 0) +
      ∑ i ∈ Finset.range m, ∑ j ∈ Finset.range (n - 1), if decide (cell i j ∈ s) ≠ decide (cell i (j + 1) ∈ s) then 1 else 0 : ℕ) : ℚ) := by
  have h1 : cutsTouching (gridGraph m n diagonals) map p =
      (gridGraph m n diagonals).edges.filter (fun e => decide (e.1 ∈ s) ≠ decide (e.2 ∈ s)) := by
    unfold cutsTouching cutsOf
    have : (gridGraph m n diagonals).edges.image sortPair = (gridGraph m n diagonals).edges := by
      conv_rhs => rw [← Finset.image_id (s := (gridGraph m n diagonals).edges)]
      exact Finset.image_congr (fun e he => sortPair_grid he)
    rw [this, Finset.filter_filter]
    apply Finset.filter_congr
    intro e _
    rw [ne_eq, ne_eq, decide_eq_decide, hs, hs]
    by_cases h1 : map.get? e.1 = some p <;> by_cases h2 : map.get? e.2 = some p
    · rw [h1, h2]; simp
    · rw [h1]; simp [h2, Ne.symm h2]
    · rw [h2]; simp [h1]
    · simp [h1, h2]
  rw [h1]
  have hd1 : Disjoint (gridVertical m n) (gridHorizontal m n) := by
    rw [Finset.disjoint_left]
    rintro ⟨c, d⟩ h h'
    rw [mem_gridVertical] at h
    rw [mem_gridHorizontal] at h'
    omega
  have hd2 : Disjoint (gridVertical m n ∪ gridHorizontal m n) (if diagonals then gridDiagonal m n else ∅) := by
    rw [Finset.disjoint_left]
    rintro ⟨c, d⟩ h h'
    rw [Finset.mem_union, mem_gridVertical, mem_gridHorizontal] at h
    split at h'
    · rw [mem_gridDiagonal] at h'
      omega
    · simp at h'
  have hone : ∀ e ∈ gridVertical m n ∪ gridHorizontal m n, (gridData m n diagonals).sharedPerim e = 1 := by
    rintro ⟨c, d⟩ h
    show (if _ then (0 : ℚ) else 1) = 1
    rw [if_neg]
    rw [Finset.mem_union, mem_gridVertical, mem_gridHorizontal] at h
    simp only [Bool.and_eq_true, decide_eq_true_eq, mem_gridDiagonal]
    omega
  have hzero : ∀ e ∈ (if diagonals then gridDiagonal m n else ∅), (gridData m n diagonals).sharedPerim e = 0 := by
    intro e h
    show (if _ then (0 : ℚ) else 1) = 0
    split at h
    · rename_i hd
      rw [if_pos]
      simp [hd, h]
    · simp at h
  show ∑ e ∈ (gridVertical m n ∪ gridHorizontal m n ∪ if diagonals then gridDiagonal m n else ∅).filter _, _ = _
  rw [Finset.filter_union, Finset.sum_union (Finset.disjoint_filter_filter hd2), Finset.filter_union,
    Finset.sum_union (Finset.disjoint_filter_filter hd1)]
  rw [Finset.sum_eq_zero (s := Finset.filter _ (if diagonals then gridDiagonal m n else ∅))
    (fun e he => hzero e (Finset.mem_filter.1 he).1), add_zero,
    Finset.sum_congr rfl (fun e he => hone e (Finset.mem_union_left _ (Finset.mem_filter.1 he).1)),
    Finset.sum_congr rfl (fun e he => hone e (Finset.mem_union_right _ (Finset.mem_filter.1 he).1)),
    Finset.sum_filter, Finset.sum_filter]
  unfold gridVertical gridHorizontal
  rw [Finset.sum_image, Finset.sum_image, Finset.sum_product, Finset.sum_product]
  · push_cast
    rfl
  · rintro ⟨i, j⟩ - ⟨i', j'⟩ - h
    simp only [Prod.mk.injEq, cell_inj] at h
    exact Prod.ext h.1.1 h.1.2
  · rintro ⟨i, j⟩ - ⟨i', j'⟩ - h
    simp only [Prod.mk.injEq, cell_inj] at h
    exact Prod.ext h.1.1 h.1.2

/-- boundary and shared perimeters of a district of a grid add up to its geometric perimeter -/
theorem grid_perimeter_sum {P : Type} [DecidableEq P] {m n : ℕ} (hm : 2 ≤ m) (hn : 2 ≤ n) {diagonals : Bool} {ups : List Key}
    {ops : List (Op Cell P)} (hops : ∀ op ∈ ops, op.WF) {p : ℕ} {v : View Cell P}
    (hv : (Heap.after (gridData m n diagonals) ups ops).frame.view p = some v) {part : P} {s : Finset Cell}
    (hs : v.assignment.parts.get? part = some s) :
    ∑ c ∈ s.filter (fun c => (gridData m n diagonals).boundaryNode c), (gridData m n diagonals).boundaryPerim c +
      ∑ e ∈ cutsTouching (gridData m n diagonals).graph v.assignment.mapping part, (gridData m n diagonals).sharedPerim e =
      (geomPerimeter s : ℚ) := by
  have hwf : (gridData m n diagonals).graph.WF := gridGraph_wf m n diagonals
  obtain ⟨hi, hd, -⟩ := after_inv (P := P) (ups := ups) hwf hops
  have hc := hi.frame.coherent p v hv
  have hcov := hi.frame.covers p v hv
  rw [hd] at hcov
  have hsub : s ⊆ gridNodes m n := by
    intro c hc'
    exact (hcov c).1 (Dict.mem_keys_iff.2 ⟨part, (hc.agree part s hs c).1 hc'⟩)
  have hint := grid_interior (m := m) (n := n) (diagonals := diagonals) (map := v.assignment.mapping) (p := part) (s := s) (hc.agree part s hs)
  have hext : ∑ c ∈ s.filter (fun c => (gridData m n diagonals).boundaryNode c), (gridData m n diagonals).boundaryPerim c =
      ((∑ c ∈ s, ((if c.x = 0 then 1 else 0) + (if c.x + 1 = m then 1 else 0) +
        ((if c.y = 0 then 1 else 0) + (if c.y + 1 = n then 1 else 0))) : ℕ) : ℚ) := by
    rw [Finset.sum_filter]
    push_cast
    apply Finset.sum_congr rfl
    intro c hc'
    have := mem_gridNodes.1 (hsub hc')
    show (if gridBoundaryNode m n c = true then getBoundaryPerim m n c else 0) = _
    unfold gridBoundaryNode getBoundaryPerim
    simp only [decide_eq_true_eq]
    split_ifs <;> first | (exfalso; omega) | norm_num
  rw [geomPerimeter_eq hsub, Nat.cast_add, ← hext, ← hint]
  rfl

/-- **C53** On a grid with at least two rows and columns, with or without diagonals, and in every history of partitions, the perimeter reported
for a district is its geometric perimeter: the number of sides of its cells behind which there is no cell of the district. -/
theorem C53_perimeter {P : Type} [DecidableEq P] (m n : ℕ) (hm : 2 ≤ m) (hn : 2 ≤ n) (diagonals : Bool) (ups : List Key)
    (ops : List (Op Cell P)) (hops : ∀ op ∈ ops, op.WF) (p : ℕ) (v : View Cell P)
    (hv : (Heap.after (gridData m n diagonals) ups ops).frame.view p = some v) (limit : ℕ) (x : Val Cell P)
    (hx : (Heap.after (gridData m n diagonals) ups ops).lookup p .perimeter limit = .ok x) :
    ∃ d, x = .rats d ∧ ∀ part s, v.assignment.parts.get? part = some s → d.get? part = some (geomPerimeter s : ℚ) := by
  have hwf : (gridData m n diagonals).graph.WF := gridGraph_wf m n diagonals
  obtain ⟨d, rfl, h⟩ := (C09_boundaries_exact hwf hops hv limit).2.2.1 x hx
  exact ⟨d, rfl, fun part s hs => by rw [h part s hs, grid_perimeter_sum hm hn hops hv hs]⟩

/-! ### Grids with one row -/

/-- **C53** (violation) In a grid with a single row every node has a `boundary_perim` that is too small: 1 less than the number of its sides on the
outside, 2 less for the only node of a 1 × 1 grid.  So `C53_boundary_perim` fails there for all nodes. -/
theorem C53_one_row_violation (n : ℕ) (diagonals : Bool) (c : Cell) (hc : c ∈ (gridGraph 1 n diagonals).nodes) :
    (gridData 1 n diagonals).boundaryPerim c + (if n = 1 then 2 else 1) = openSides (gridGraph 1 n diagonals).nodes c := by
  have hc' : c.x < 1 ∧ c.y < n := mem_gridNodes.1 hc
  show getBoundaryPerim 1 n c + _ = (openSides (gridNodes 1 n) c : ℕ)
  unfold getBoundaryPerim openSides
  simp only [mem_gridNodes, cell_x, cell_y]
  split_ifs <;> first | (exfalso; omega) | norm_num

/-- updaters of a `Grid` used in the examples -/
def gridUps : List Key := [.cutEdges, .cutEdgesByPart, .boundaryNodes, .extBoundary, .intBoundary, .perimeter, .tally ["population"]]

/-- **C53** (violation) The perimeter of the single district of `Grid((1, 2))` is reported as 4; it is 6. -/
theorem C53_perimeter_violation :
    (Heap.after (gridData 1 2 false) gridUps [Op.create (⟨[(cell 0 0, 7), (cell 0 1, 7)]⟩ : Dict Cell ℕ)]).lookup 0 .perimeter 9 =
      .ok (.rats ⟨[(7, 4)]⟩) ∧ geomPerimeter {cell 0 0, cell 0 1} = 6 := by
  constructor <;> decide +kernel

/-- a 3 × 3 grid with diagonals: perimeters of the default plan -/
example : (Heap.after (gridData 3 3 true) gridUps [Op.create (gridAssignment 3 3)]).lookup 0 .perimeter 9 =
    .ok (.rats ⟨[(0, 4), (2, 6), (1, 6), (3, 8)]⟩) := by decide +kernel

example : geomPerimeter {cell 0 1, cell 0 2} = 6 ∧
    geomPerimeter {cell 1 1, cell 1 2, cell 2 1, cell 2 2} = 8 := by decide +kernel

/-! ### The default plan -/

theorem gridAssignment_wf (m n : ℕ) : (gridAssignment m n).WF := by
  unfold Dict.WF Dict.keys gridAssignment
  simp only [List.map_map]
  have : ((fun e : Cell × ℕ => e.1) ∘ fun c : Cell => (c, colorQuadrants c (m / 2) (n / 2))) = id := rfl
  rw [this, List.map_id]
  exact nodup_iter _

theorem gridAssignment_get {m n : ℕ} {c : Cell} : (gridAssignment m n).get? c =
    if c ∈ gridNodes m n then some (colorQuadrants c (m / 2) (n / 2)) else none := by
  have hw := gridAssignment_wf m n
  by_cases h : c ∈ gridNodes m n
  · rw [if_pos h]
    exact (Dict.mem_entries_iff hw).1 (List.mem_map.2 ⟨c, mem_iter.2 h, rfl⟩)
  · rw [if_neg h]
    rcases hg : (gridAssignment m n).get? c with _ | q
    · rfl
    · have := (Dict.mem_entries_iff hw).2 hg
      obtain ⟨c', hc', he⟩ := List.mem_map.1 this
      cases he
      exact absurd (mem_iter.1 hc') h

/-- a rectangle of cells -/
def rect (x0 x1 y0 y1 : ℕ) : Finset Cell := (Finset.Ico x0 x1 ×ˢ Finset.Ico y0 y1).image toLex

theorem mem_rect {x0 x1 y0 y1 : ℕ} {c : Cell} : c ∈ rect x0 x1 y0 y1 ↔ (x0 ≤ c.x ∧ c.x < x1) ∧ (y0 ≤ c.y ∧ c.y < y1) := by
  unfold rect
  simp only [Finset.mem_image, Finset.mem_product, Finset.mem_Ico]
  constructor
  · rintro ⟨⟨i, j⟩, h, rfl⟩; exact h
  · intro h; exact ⟨(c.x, c.y), h, rfl⟩

theorem card_rect (x0 x1 y0 y1 : ℕ) : (rect x0 x1 y0 y1).card = (x1 - x0) * (y1 - y0) := by
  unfold rect
  rw [Finset.card_image_of_injective _ toLex.injective, Finset.card_product, Nat.card_Ico, Nat.card_Ico]

theorem rect_connected {m n x0 x1 y0 y1 : ℕ} {diagonals : Bool} (hx : x0 < x1) (hy : y0 < y1) (hm : x1 ≤ m) (hn : y1 ≤ n) :
    ConnectedOn (gridGraph m n diagonals) (rect x0 x1 y0 y1) := by
  have step : ∀ c d, c ∈ rect x0 x1 y0 y1 → d ∈ rect x0 x1 y0 y1 → Touch c d → Within (gridGraph m n diagonals) (rect x0 x1 y0 y1) c d := by
    intro c d hc hd h
    refine ⟨((C53_graph m n diagonals).2 c d).2 ⟨?_, ?_, .inl h⟩, hc, hd⟩
    · rw [mem_rect] at hc; omega
    · rw [mem_rect] at hd; omega
  have h1 : ∀ k j, y0 ≤ j → j < y1 → x0 + k < x1 → ReachIn (gridGraph m n diagonals) (rect x0 x1 y0 y1) (cell x0 j) (cell (x0 + k) j) := by
    intro k j hj0 hj1 hk
    induction k with
    | zero => exact Relation.ReflTransGen.refl
    | succ k ih =>
      refine Relation.ReflTransGen.tail (ih (by omega)) (step _ _ (mem_rect.2 ?_) (mem_rect.2 ?_) ?_)
      · simp only [cell_x, cell_y]; omega
      · simp only [cell_x, cell_y]; omega
      · exact .inr ⟨rfl, .inl rfl⟩
  have h2 : ∀ k, y0 + k < y1 → ReachIn (gridGraph m n diagonals) (rect x0 x1 y0 y1) (cell x0 y0) (cell x0 (y0 + k)) := by
    intro k hk
    induction k with
    | zero => exact Relation.ReflTransGen.refl
    | succ k ih =>
      refine Relation.ReflTransGen.tail (ih (by omega)) (step _ _ (mem_rect.2 ?_) (mem_rect.2 ?_) ?_)
      · simp only [cell_x, cell_y]; omega
      · simp only [cell_x, cell_y]; omega
      · exact .inl ⟨rfl, .inl rfl⟩
  have h3 : ∀ c ∈ rect x0 x1 y0 y1, ReachIn (gridGraph m n diagonals) (rect x0 x1 y0 y1) (cell x0 y0) c := by
    intro c hc
    rw [mem_rect] at hc
    have e1 := h2 (c.y - y0) (by omega)
    have e2 := h1 (c.x - x0) c.y (by omega) (by omega) (by omega)
    rw [show y0 + (c.y - y0) = c.y by omega] at e1
    rw [show x0 + (c.x - x0) = c.x by omega] at e2
    exact e1.trans e2
  refine ⟨⟨cell x0 y0, mem_rect.2 (by simp only [cell_x, cell_y]; omega)⟩, fun u hu v hv => (h3 u hu).symm.trans (h3 v hv)⟩

/-- **C69**, for `color_half`: with a threshold `t` inside the grid the cells of colour 0 are the first `t + 1` columns and those of colour 1 the rest;
both are contiguous and not empty, and there is no other colour. -/
theorem C69_halves (m n t : ℕ) (hn : 0 < n) (ht : t + 1 < m) (diagonals : Bool) :
    (∀ c ∈ gridNodes m n, colorHalf c t = 0 ∨ colorHalf c t = 1) ∧
    (gridNodes m n).filter (fun c => colorHalf c t = 0) = rect 0 (t + 1) 0 n ∧
    (∀ p < 2, ((gridNodes m n).filter (fun c => colorHalf c t = p)).card = (if p = 0 then t + 1 else m - (t + 1)) * n) ∧
    ∀ p < 2, ConnectedOn (gridGraph m n diagonals) ((gridNodes m n).filter (fun c => colorHalf c t = p)) := by
  have h0 : (gridNodes m n).filter (fun c => colorHalf c t = 0) = rect 0 (t + 1) 0 n := by
    ext c
    rw [Finset.mem_filter, mem_rect, mem_gridNodes]
    unfold colorHalf
    by_cases h : c.x ≤ t
    · simp [h]; try omega
    · simp [h]; try omega
  have h1 : (gridNodes m n).filter (fun c => colorHalf c t = 1) = rect (t + 1) m 0 n := by
    ext c
    rw [Finset.mem_filter, mem_rect, mem_gridNodes]
    unfold colorHalf
    by_cases h : c.x ≤ t
    · simp [h]; try omega
    · simp [h]; try omega
  refine ⟨fun c _ => ?_, h0, fun p hp => ?_, fun p hp => ?_⟩
  · unfold colorHalf
    split_ifs <;> simp
  · obtain rfl | rfl : p = 0 ∨ p = 1 := by omega
    · rw [h0, card_rect]; simp
    · rw [h1, card_rect]; simp
  · obtain rfl | rfl : p = 0 ∨ p = 1 := by omega
    · rw [h0]; exact rect_connected (by omega) hn (by omega) le_rfl
    · rw [h1]; exact rect_connected ht hn le_rfl le_rfl

/-- the halves of a grid of five columns and two rows, with threshold 1 -/
example : ((gridNodes 5 2).filter (fun c => colorHalf c 1 = 0)).card = 4 ∧ ((gridNodes 5 2).filter (fun c => colorHalf c 1 = 1)).card = 6 := by decide +kernel

/-- the quadrant with label `p` -/
def quadrant (m n p : ℕ) : Finset Cell :=
  rect (if p % 2 = 0 then 0 else m / 2) (if p % 2 = 0 then m / 2 else m) (if p < 2 then 0 else n / 2) (if p < 2 then n / 2 else n)

/-- **C69** With at least two rows and columns the default plan of a `Grid` has the four districts 0, 1, 2, 3, all of them contiguous, namely the
quadrants of the grid; district 0 has `⌊m/2⌋ ⌊n/2⌋` cells and so on, so in a grid with even sides all have the same population. -/
theorem C69_default_plan (m n : ℕ) (hm : 2 ≤ m) (hn : 2 ≤ n) (diagonals : Bool) :
    ∃ a, Assignment.fromDict (gridAssignment m n) = .ok a ∧ a.Coherent ∧ a.Covers (gridGraph m n diagonals).nodes ∧
      (∀ p, p ∈ a.parts.keys ↔ p < 4) ∧ ContiguousPlan (gridGraph m n diagonals) a ∧
      (∀ p < 4, a.parts.get? p = some (quadrant m n p)) ∧
      (∀ p < 4, (quadrant m n p).card = (if p % 2 = 0 then m / 2 else m - m / 2) * (if p < 2 then n / 2 else n - n / 2)) ∧
      (m % 2 = 0 → n % 2 = 0 → ∀ p < 4, 4 * (quadrant m n p).card = m * n) := by
  obtain ⟨a, h1, h2, h3, h4⟩ := fromDict_ok (gridAssignment_wf m n)
  have hlt : ∀ c : Cell, colorQuadrants c (m / 2) (n / 2) < 4 := by
    intro c; unfold colorQuadrants; simp only; split_ifs <;> omega
  have hquad : ∀ p < 4, ∀ c, c ∈ quadrant m n p ↔ a.mapping.get? c = some p := by
    intro p hp c
    rw [h3, gridAssignment_get]
    unfold quadrant
    rw [mem_rect]
    by_cases hc : c ∈ gridNodes m n
    · rw [if_pos hc, Option.some.injEq]
      rw [mem_gridNodes] at hc
      unfold colorQuadrants
      simp only
      split_ifs <;> omega
    · rw [if_neg hc]
      rw [mem_gridNodes] at hc
      simp only [reduceCtorEq, iff_false]
      split_ifs <;> omega
  have hcard : ∀ p < 4, (quadrant m n p).card = (if p % 2 = 0 then m / 2 else m - m / 2) * (if p < 2 then n / 2 else n - n / 2) := by
    intro p hp
    unfold quadrant
    rw [card_rect]
    split_ifs <;> simp
  have hne : ∀ p < 4, ConnectedOn (gridGraph m n diagonals) (quadrant m n p) := by
    intro p hp
    unfold quadrant
    apply rect_connected <;> split_ifs <;> omega
  have hkeys : ∀ p, p ∈ a.parts.keys ↔ p < 4 := by
    intro p
    constructor
    · intro hp
      rw [h4] at hp
      obtain ⟨c, hc⟩ := (mem_keys_levelSets (gridAssignment_wf m n)).1 hp
      rw [gridAssignment_get] at hc
      split at hc
      · cases hc; exact hlt c
      · cases hc
    · intro hp
      obtain ⟨c, hc⟩ := (hne p hp).1
      exact h2.complete c p ((hquad p hp c).1 hc)
  have hget : ∀ p < 4, a.parts.get? p = some (quadrant m n p) := by
    intro p hp
    obtain ⟨s, hs⟩ := Dict.mem_keys_iff.1 ((hkeys p).2 hp)
    rw [hs]
    congr 1
    ext c
    rw [h2.agree p s hs, hquad p hp]
  refine ⟨a, h1, h2, ?_, hkeys, ?_, hget, hcard, ?_⟩
  · intro c
    rw [Dict.mem_keys_iff]
    simp only [h3, gridAssignment_get]
    show _ ↔ c ∈ gridNodes m n
    split <;> simp_all
  · intro p s hs
    have hp := (hkeys p).1 (Dict.mem_keys_iff.2 ⟨s, hs⟩)
    rw [hget p hp] at hs
    cases hs
    exact hne p hp
  · intro hm2 hn2 p hp
    rw [hcard p hp]
    obtain ⟨a, rfl⟩ : ∃ a, m = 2 * a := ⟨m / 2, by omega⟩
    obtain ⟨b, rfl⟩ : ∃ b, n = 2 * b := ⟨n / 2, by omega⟩
    have e1 : (if p % 2 = 0 then 2 * a / 2 else 2 * a - 2 * a / 2) = a := by split <;> omega
    have e2 : (if p < 2 then 2 * b / 2 else 2 * b - 2 * b / 2) = b := by split <;> omega
    rw [e1, e2]
    ring

example : (Assignment.fromDict (gridAssignment 3 4)).toOption.map (fun a => a.parts.keys) = some [0, 2, 1, 3] := by decide +kernel

/-! ### `as_list_of_lists` -/

/-- **C70** (partial) `as_list_of_lists` returns a list of `n` lists of length `m`, and entry `[j][i]` is the district of node `(i, j)`.  What is missing:
the documentation says that entry `(i, j)` is the district of `(i, j)`; that is false, see `C70_transposed_violation`. -/
theorem C70_list_of_lists_partial {P : Type} [DecidableEq P] (m n : ℕ) (mapping : Dict Cell P) (f : Cell → P)
    (hf : ∀ c ∈ gridNodes m n, mapping.get? c = some (f c)) :
    ∃ rows, asListOfLists m n mapping = .ok rows ∧ rows.length = n ∧
      ∀ j < n, ∃ row, rows[j]? = some row ∧ row.length = m ∧ ∀ i < m, row[i]? = some (f (cell i j)) := by
  refine ⟨(List.range n).map (fun j => (List.range m).map (fun i => f (cell i j))), ?_, ?_, ?_⟩
  · unfold asListOfLists
    apply Py.mapM_ok
    intro j hj
    apply Py.mapM_ok
    intro i hi
    rw [Dict.get_eq_ok_iff]
    apply hf
    rw [mem_gridNodes]
    exact ⟨List.mem_range.1 hi, List.mem_range.1 hj⟩
  · simp
  · intro j hj
    refine ⟨(List.range m).map (fun i => f (cell i j)), ?_, by simp, ?_⟩
    · rw [List.getElem?_map, List.getElem?_range hj]; rfl
    · intro i hi
      rw [List.getElem?_map, List.getElem?_range hi]; rfl

/-- **C70** (violation) In the default plan of `Grid((2, 2))` entry `(0, 1)` of `as_list_of_lists` is the district of node `(1, 0)`, not of node `(0, 1)`;
and `Grid((2, 3))` has no entry `(0, 2)`, although it has a node `(0, 2)`. -/
theorem C70_transposed_violation :
    (asListOfLists 2 2 (gridAssignment 2 2)).toOption = some [[0, 1], [2, 3]] ∧ (gridAssignment 2 2).get? (cell 0 1) = some 2 ∧
    (asListOfLists 2 3 (gridAssignment 2 3)).toOption = some [[0, 1], [2, 3], [2, 3]] ∧ cell 0 2 ∈ gridNodes 2 3 := by
  refine ⟨?_, ?_, ?_, ?_⟩ <;> decide +kernel

end GC

import Verif.Model.Geo
import Verif.Props.Attributes
import Verif.Props.Updaters
import Mathlib.Algebra.BigOperators.Group.Finset.Sigma
import Mathlib.Data.Fin.VecNotation
import Mathlib.Data.Fintype.Basic

/-!
# Graphs from geometries (C85, C86, C87)
-/

set_option linter.unusedSectionVars false
set_option autoImplicit false

namespace GC

variable {V P : Type} [LinearOrder V] [DecidableEq P]

/-! ### C85: adjacency -/

/-- What is assumed of shapely: the search tree returns every polygon that meets the given one (and possibly more), intersections are symmetric,
lengths are not negative, and an empty intersection has length 0. -/
structure Geometries.Sound (geo : Geometries V) : Prop where
  query_sub : ∀ i, ∀ j ∈ geo.query i, j ∈ geo.ids
  query_complete : ∀ i ∈ geo.ids, ∀ j ∈ geo.ids, i ≠ j → geo.interEmpty i j = false → j ∈ geo.query i
  empty : ∀ i j, geo.isEmpty j = true → geo.interEmpty i j = true
  empty_comm : ∀ i j, geo.interEmpty i j = geo.interEmpty j i
  length_comm : ∀ i j, geo.interLength i j = geo.interLength j i
  length_nonneg : ∀ i j, 0 ≤ geo.interLength i j
  length_empty : ∀ i j, geo.interEmpty i j = true → geo.interLength i j = 0

/-- queen adjacency: two polygons that have a point in common -/
def QueenAdj (geo : Geometries V) (i j : V) : Prop := i ∈ geo.ids ∧ j ∈ geo.ids ∧ i ≠ j ∧ geo.interEmpty i j = false

/-- rook adjacency: two polygons whose common boundary has positive length -/
def RookAdj (geo : Geometries V) (i j : V) : Prop := i ∈ geo.ids ∧ j ∈ geo.ids ∧ i ≠ j ∧ 0 < geo.interLength i j

instance (geo : Geometries V) (i j : V) : Decidable (QueenAdj geo i j) := by unfold QueenAdj; infer_instance
instance (geo : Geometries V) (i j : V) : Decidable (RookAdj geo i j) := by unfold RookAdj; infer_instance

/-- the adjacency dictionary holds exactly the pairs of the relation `R`, with their lengths -/
structure Table (adj : Dict V (Dict V ℚ)) (ids : Finset V) (R : V → V → Prop) [∀ i j, Decidable (R i j)] (L : V → V → ℚ) : Prop where
  wf : adj.WF
  keys : ∀ i, i ∈ adj.keys ↔ i ∈ ids
  row_wf : ∀ i row, adj.get? i = some row → row.WF
  row : ∀ i row, adj.get? i = some row → ∀ j, row.get? j = if R i j then some (L i j) else none

theorem queen_table {geo : Geometries V} (h : geo.Sound) : Table (queen geo) geo.ids (QueenAdj geo) geo.interLength := by
  have hget : ∀ i, (queen geo).get? i = if i ∈ geo.ids then
      some (((geo.neighboring i).filter (fun j => !geo.interEmpty i j)).foldl (fun e j => e.set j (geo.interLength i j)) Dict.empty) else none := by
    intro i
    unfold queen
    rw [foldl_set_find (fun i => i) (fun i =>
      ((geo.neighboring i).filter (fun j => !geo.interEmpty i j)).foldl (fun e j => e.set j (geo.interLength i j)) Dict.empty),
      find?_reverse_of_nodup _ _ (by simpa using nodup_iter geo.ids), Dict.get?_empty, Option.or_none]
    split_ifs with hi
    · have : (iter geo.ids).find? (fun x => x = i) = some i := by
        rcases hf : (iter geo.ids).find? (fun x => x = i) with _ | y
        · rw [List.find?_eq_none] at hf
          exact absurd (hf i (mem_iter.2 hi)) (by simp)
        · have := List.find?_some hf
          simp only [decide_eq_true_eq] at this
          rw [this]
      rw [this]; rfl
    · rw [Option.map_eq_none_iff, List.find?_eq_none]
      intro x hx
      simp only [decide_eq_true_eq]
      rintro rfl
      exact hi (mem_iter.1 hx)
  refine ⟨foldl_set_wf (fun i => i) _ _ _ Dict.wf_empty, fun i => ?_, fun i row hr => ?_, fun i row hr j => ?_⟩
  · rw [← Dict.get?_isSome_iff, hget]
    split_ifs with hi <;> simp [hi]
  · rw [hget] at hr
    split_ifs at hr
    cases hr
    exact foldl_set_wf (fun j => j) _ _ _ Dict.wf_empty
  · rw [hget] at hr
    split_ifs at hr with hi
    cases hr
    rw [foldl_set_find (fun j => j) (fun j => geo.interLength i j), Dict.get?_empty, Option.or_none]
    have hmem : j ∈ (geo.neighboring i).filter (fun j => !geo.interEmpty i j) ↔ QueenAdj geo i j := by
      unfold Geometries.neighboring QueenAdj
      simp only [List.mem_filter, Bool.and_eq_true, Bool.not_eq_true', decide_eq_true_eq]
      constructor
      · rintro ⟨⟨h1, -, h3⟩, h4⟩
        exact ⟨hi, h.query_sub i j h1, fun e => h3 e.symm, h4⟩
      · rintro ⟨h1, h2, h3, h4⟩
        refine ⟨⟨h.query_complete i h1 j h2 h3 h4, ?_, fun e => h3 e.symm⟩, h4⟩
        rcases he : geo.isEmpty j with _ | _
        · rfl
        · rw [h.empty i j he] at h4; cases h4
    split_ifs with hq
    · rcases hf : ((geo.neighboring i).filter (fun j => !geo.interEmpty i j)).reverse.find? (fun x => x = j) with _ | y
      · rw [List.find?_eq_none] at hf
        exact absurd (hf j (List.mem_reverse.2 (hmem.2 hq))) (by simp)
      · have := List.find?_some hf
        simp only [decide_eq_true_eq] at this
        rw [this]; rfl
    · rw [Option.map_eq_none_iff, List.find?_eq_none]
      intro x hx
      simp only [decide_eq_true_eq]
      rintro rfl
      exact hq (hmem.1 (List.mem_reverse.1 hx))

theorem get?_map_values {K W U : Type} [DecidableEq K] (f : W → U) (l : List (K × W)) (k : K) :
    (⟨l.map (fun e => (e.1, f e.2))⟩ : Dict K U).get? k = ((⟨l⟩ : Dict K W).get? k).map f := by
  simp only [Dict.get?, List.find?_map, Option.map_map]
  rfl

theorem get?_filter {K W : Type} [DecidableEq K] (d : Dict K W) (hd : d.WF) (q : W → Bool) (k : K) :
    (⟨d.entries.filter (fun x => q x.2)⟩ : Dict K W).WF ∧
    (⟨d.entries.filter (fun x => q x.2)⟩ : Dict K W).get? k = (d.get? k).filter q := by
  have hwf : (⟨d.entries.filter (fun x => q x.2)⟩ : Dict K W).WF := by
    unfold Dict.WF Dict.keys at hd ⊢
    exact hd.sublist (List.Sublist.map _ List.filter_sublist)
  refine ⟨hwf, ?_⟩
  rcases h : d.get? k with _ | w
  · rw [Option.filter_none, Dict.get?_eq_none_iff]
    rw [Dict.get?_eq_none_iff] at h
    intro hk
    obtain ⟨e, he, rfl⟩ := List.mem_map.1 hk
    exact h (List.mem_map.2 ⟨e, (List.mem_filter.1 he).1, rfl⟩)
  · have hm := Dict.mem_entries_of_get? h
    rcases hq : q w with _ | _
    · rw [Option.filter_some_neg (by simp [hq]), Dict.get?_eq_none_iff]
      intro hk
      obtain ⟨⟨k', w'⟩, he, rfl⟩ := List.mem_map.1 hk
      obtain ⟨h1, h2⟩ := List.mem_filter.1 he
      have := Dict.get?_of_mem_entries hd h1
      rw [h] at this
      cases this
      rw [hq] at h2; cases h2
    · rw [Option.filter_some_pos hq]
      exact Dict.get?_of_mem_entries hwf (List.mem_filter.2 ⟨hm, hq⟩)

theorem rook_table {geo : Geometries V} (h : geo.Sound) : Table (rook geo) geo.ids (RookAdj geo) geo.interLength := by
  have hq := queen_table h
  have hkeys : (rook geo).keys = (queen geo).keys := by
    unfold rook Dict.keys
    rw [List.map_map]; rfl
  have hget : ∀ i, (rook geo).get? i = ((queen geo).get? i).map (fun e => ⟨e.entries.filter (fun x => decide (0 < x.2))⟩) := by
    intro i
    unfold rook
    rw [get?_map_values (fun e : Dict V ℚ => (⟨e.entries.filter (fun x => decide (0 < x.2))⟩ : Dict V ℚ))]
  refine ⟨?_, fun i => ?_, fun i row hr => ?_, fun i row hr j => ?_⟩
  · unfold Dict.WF; rw [hkeys]; exact hq.wf
  · rw [hkeys]; exact hq.keys i
  · rw [hget, Option.map_eq_some_iff] at hr
    obtain ⟨e, he, rfl⟩ := hr
    exact (get?_filter e (hq.row_wf i e he) (fun x => decide (0 < x)) i).1
  · rw [hget, Option.map_eq_some_iff] at hr
    obtain ⟨e, he, rfl⟩ := hr
    rw [(get?_filter e (hq.row_wf i e he) (fun x => decide (0 < x)) j).2, hq.row i e he]
    by_cases hr : RookAdj geo i j
    · have hqa : QueenAdj geo i j := by
        refine ⟨hr.1, hr.2.1, hr.2.2.1, ?_⟩
        rcases he : geo.interEmpty i j with _ | _
        · rfl
        · have := hr.2.2.2
          rw [h.length_empty i j he] at this
          exact absurd this (lt_irrefl _)
      rw [if_pos hr, if_pos hqa, Option.filter_some_pos (by simpa using hr.2.2.2)]
    · rw [if_neg hr]
      by_cases hqa : QueenAdj geo i j
      · rw [if_pos hqa, Option.filter_some_neg]
        exact decide_eq_false (fun hp => hr ⟨hqa.1, hqa.2.1, hqa.2.2.1, hp⟩)
      · rw [if_neg hqa]; rfl

/-- the networkx graph of an adjacency dictionary -/
theorem graphOf_table {adj : Dict V (Dict V ℚ)} {ids : Finset V} {R : V → V → Prop} [∀ i j, Decidable (R i j)] {L : V → V → ℚ}
    (h : Table adj ids R L) (hR : ∀ i j, R i j → i ∈ ids ∧ j ∈ ids ∧ i ≠ j) (hsymm : ∀ i j, R i j → R j i) (hL : ∀ i j, L i j = L j i) :
    (graphOf adj).WF ∧ (graphOf adj).nodes = ids ∧ (∀ i j, (graphOf adj).Adj i j ↔ R i j) ∧
    (∀ i j, R i j → (sharedOf adj).get? (sortPair (i, j)) = some (L i j)) ∧ ∀ e ∈ (graphOf adj).edges, e.1 ≤ e.2 := by
  have hent : ∀ e ∈ adj.entries, e.1 ∈ ids ∧ e.2.WF ∧ ∀ j, j ∈ e.2.keys ↔ R e.1 j := by
    intro e he
    have hg := Dict.get?_of_mem_entries h.wf he
    refine ⟨(h.keys e.1).1 (Dict.mem_keys_iff.2 ⟨e.2, hg⟩), h.row_wf _ _ hg, fun j => ?_⟩
    rw [← Dict.get?_isSome_iff, h.row _ _ hg]
    split_ifs with hr <;> simp [hr]
  have hrow : ∀ i ∈ ids, ∃ row, (i, row) ∈ adj.entries := by
    intro i hi
    obtain ⟨row, hr⟩ := Dict.mem_keys_iff.1 ((h.keys i).2 hi)
    exact ⟨row, Dict.mem_entries_of_get? hr⟩
  have hedge : ∀ e, e ∈ (graphOf adj).edges ↔ ∃ i j, R i j ∧ e = sortPair (i, j) := by
    intro e
    simp only [graphOf, List.mem_toFinset, List.mem_flatten, List.mem_map]
    constructor
    · rintro ⟨l, ⟨x, hx, rfl⟩, he⟩
      obtain ⟨j, hj, rfl⟩ := List.mem_map.1 he
      exact ⟨x.1, j, ((hent x hx).2.2 j).1 hj, rfl⟩
    · rintro ⟨i, j, hr, rfl⟩
      obtain ⟨row, hx⟩ := hrow i (hR i j hr).1
      exact ⟨_, ⟨(i, row), hx, rfl⟩, List.mem_map.2 ⟨j, ((hent _ hx).2.2 j).2 hr, rfl⟩⟩
  have hle : ∀ e ∈ (graphOf adj).edges, e.1 ≤ e.2 := by
    intro e he
    obtain ⟨i, j, -, rfl⟩ := (hedge e).1 he
    unfold sortPair
    split_ifs with hij
    · exact hij
    · exact (not_le.1 hij).le
  have hadj : ∀ i j, (i, j) ∈ (graphOf adj).edges → R i j := by
    intro i j he
    obtain ⟨a, b, hr, hab⟩ := (hedge _).1 he
    rcases sortPair_eq_or (a, b) with h' | h' <;> rw [h'] at hab <;> cases hab
    · exact hr
    · exact hsymm _ _ hr
  have hnodes : (graphOf adj).nodes = ids := by
    ext x
    simp only [graphOf, Finset.mem_union, List.mem_toFinset, mem_foldl_union, List.mem_map, h.keys]
    constructor
    · rintro (hx | hx | ⟨t, ⟨row, hrow, rfl⟩, hx⟩)
      · exact hx
      · simp at hx
      · obtain ⟨e, he, rfl⟩ := List.mem_map.1 hrow
        exact (hR _ _ (((hent e he).2.2 x).1 (List.mem_toFinset.1 hx))).2.1
    · exact .inl
  refine ⟨⟨?_, ?_, ?_⟩, hnodes, fun i j => ⟨?_, ?_⟩, fun i j hr => ?_, hle⟩
  · intro e he
    rw [hnodes]; exact (hR _ _ (hadj e.1 e.2 he)).1
  · intro e he
    rw [hnodes]; exact (hR _ _ (hadj e.1 e.2 he)).2.1
  · intro e he hne hmem
    exact hne (le_antisymm (hle e he) (hle _ hmem))
  · rintro (he | he)
    · exact hadj i j he
    · exact hsymm _ _ (hadj j i he)
  · intro hr
    have := (hedge (sortPair (i, j))).2 ⟨i, j, hr, rfl⟩
    rcases sortPair_eq_or (i, j) with h' | h' <;> rw [h'] at this
    · exact .inl this
    · exact .inr this
  · have hflat : sharedOf adj = (adj.entries.flatMap (fun e => e.2.entries.map (fun x => (sortPair (e.1, x.1), x.2)))).foldl
        (fun d y => d.set y.1 y.2) Dict.empty := by
      unfold sharedOf
      generalize (Dict.empty : Dict (V × V) ℚ) = d0
      generalize adj.entries = l
      induction l generalizing d0 with
      | nil => rfl
      | cons e l ih => rw [List.foldl_cons, ih, List.flatMap_cons, List.foldl_append, List.foldl_map]
    rw [hflat, foldl_set_find (fun y : (V × V) × ℚ => y.1) (fun y => y.2), Dict.get?_empty, Option.or_none]
    have hall : ∀ y ∈ adj.entries.flatMap (fun e => e.2.entries.map (fun x => (sortPair (e.1, x.1), x.2))),
        ∃ a b, R a b ∧ y = (sortPair (a, b), L a b) := by
      intro y hy
      obtain ⟨e, he, hy⟩ := List.mem_flatMap.1 hy
      obtain ⟨x, hx, rfl⟩ := List.mem_map.1 hy
      have hx' := Dict.get?_of_mem_entries (hent e he).2.1 hx
      rw [h.row _ _ (Dict.get?_of_mem_entries h.wf he)] at hx'
      split_ifs at hx' with hr
      exact ⟨e.1, x.1, hr, by rw [Option.some.inj hx']⟩
    obtain ⟨row, hx⟩ := hrow i (hR i j hr).1
    have hin : (sortPair (i, j), L i j) ∈ adj.entries.flatMap (fun e => e.2.entries.map (fun x => (sortPair (e.1, x.1), x.2))) := by
      refine List.mem_flatMap.2 ⟨(i, row), hx, List.mem_map.2 ⟨(j, L i j), ?_, rfl⟩⟩
      apply Dict.mem_entries_of_get?
      rw [h.row _ _ (Dict.get?_of_mem_entries h.wf hx), if_pos hr]
    rcases hf : (adj.entries.flatMap (fun e => e.2.entries.map (fun x => (sortPair (e.1, x.1), x.2)))).reverse.find?
        (fun y => y.1 = sortPair (i, j)) with _ | y
    · rw [List.find?_eq_none] at hf
      exact absurd (hf _ (List.mem_reverse.2 hin)) (by simp)
    · have h1 := List.find?_some hf
      obtain ⟨a, b, -, rfl⟩ := hall y (List.mem_reverse.1 (List.mem_of_find?_eq_some hf))
      simp only [decide_eq_true_eq] at h1
      rw [hf]
      show some (L a b) = _
      congr 1
      rcases sortPair_eq_or (a, b) with h2 | h2 <;> rcases sortPair_eq_or (i, j) with h3 | h3 <;> rw [h2, h3] at h1 <;> cases h1
      · rfl
      · exact hL _ _
      · exact hL _ _
      · rfl

/-- **C85** The graph of a set of polygons: `neighbors` accepts exactly `"rook"` and `"queen"`, the nodes are the polygons, two of them are joined iff they
are rook (queen) neighbours, and `shared_perim` of an edge is the length of the common boundary. -/
theorem C85_adjacency (geo : Geometries V) (h : geo.Sound) :
    (∀ name, name ≠ "rook" → name ≠ "queen" → geoNeighbors geo name = .error .valueError) ∧
    (∃ adj, geoNeighbors geo "rook" = .ok adj ∧ (graphOf adj).WF ∧ (graphOf adj).nodes = geo.ids ∧
      (∀ i j, (graphOf adj).Adj i j ↔ i ∈ geo.ids ∧ j ∈ geo.ids ∧ i ≠ j ∧ 0 < geo.interLength i j) ∧
      ∀ i j, (graphOf adj).Adj i j → (sharedOf adj).get? (sortPair (i, j)) = some (geo.interLength i j)) ∧
    (∃ adj, geoNeighbors geo "queen" = .ok adj ∧ (graphOf adj).WF ∧ (graphOf adj).nodes = geo.ids ∧
      (∀ i j, (graphOf adj).Adj i j ↔ i ∈ geo.ids ∧ j ∈ geo.ids ∧ i ≠ j ∧ geo.interEmpty i j = false) ∧
      ∀ i j, (graphOf adj).Adj i j → (sharedOf adj).get? (sortPair (i, j)) = some (geo.interLength i j)) := by
  refine ⟨fun name h1 h2 => ?_, ⟨rook geo, rfl, ?_⟩, ⟨queen geo, rfl, ?_⟩⟩
  · unfold geoNeighbors; rw [if_neg h1, if_neg h2]
  · obtain ⟨h1, h2, h3, h4, -⟩ := graphOf_table (rook_table h) (fun i j hr => ⟨hr.1, hr.2.1, hr.2.2.1⟩)
      (fun i j hr => ⟨hr.2.1, hr.1, hr.2.2.1.symm, by rw [h.length_comm]; exact hr.2.2.2⟩) h.length_comm
    exact ⟨h1, h2, h3, fun i j ha => h4 i j ((h3 i j).1 ha)⟩
  · obtain ⟨h1, h2, h3, h4, -⟩ := graphOf_table (queen_table h) (fun i j hr => ⟨hr.1, hr.2.1, hr.2.2.1⟩)
      (fun i j hr => ⟨hr.2.1, hr.1, hr.2.2.1.symm, by rw [h.empty_comm]; exact hr.2.2.2⟩) h.length_comm
    exact ⟨h1, h2, h3, fun i j ha => h4 i j ((h3 i j).1 ha)⟩

/-- **C85** Rook neighbours are queen neighbours. -/
theorem C85_rook_queen (geo : Geometries V) (h : geo.Sound) (i j : V) (hr : (graphOf (rook geo)).Adj i j) : (graphOf (queen geo)).Adj i j := by
  obtain ⟨-, ⟨a, ha, -, -, h1, -⟩, ⟨b, hb, -, -, h2, -⟩⟩ := C85_adjacency geo h
  cases ha; cases hb
  rw [h1] at hr
  rw [h2]
  refine ⟨hr.1, hr.2.1, hr.2.2.1, ?_⟩
  rcases he : geo.interEmpty i j with _ | _
  · rfl
  · have := hr.2.2.2
    rw [h.length_empty i j he] at this
    exact absurd this (lt_irrefl _)

/-! ### C86: attributes and perimeters -/

theorem foldl_update {D : Type} (f : V → D → D) (l : List V) (hl : l.Nodup) (A : V → D) (v : V) :
    l.foldl (fun A v => Function.update A v (f v (A v))) A v = if v ∈ l then f v (A v) else A v := by
  induction l generalizing A with
  | nil => simp
  | cons w l ih =>
    rw [List.nodup_cons] at hl
    rw [List.foldl_cons, ih hl.2]
    by_cases hv : v = w
    · subst hv
      rw [if_neg hl.1, if_pos List.mem_cons_self, Function.update_self]
    · rw [Function.update_of_ne hv]
      simp [hv]

/-- the attributes of the nodes before the table is added -/
theorem geoAttrs_spec (G : Graph V) (shared : Dict (V × V) ℚ) (geo : Geometries V) (hG : G.nodes = geo.ids) (v : V) :
    let A := addAreas G geo (addBoundaryPerimeters G shared geo (fun _ => Dict.empty))
    (v ∈ geo.ids → (A v).get? "boundary_node" = some (.bool (geo.onOuter v)) ∧ (A v).get? "area" = some (.num (geo.area v)) ∧
      (A v).get? "boundary_perim" = if geo.onOuter v then
        some (.num (geo.length v - ∑ w ∈ G.neighbors v, (shared.get? (sortPair (v, w))).getD 0)) else none) ∧
    ∀ c, c ≠ "boundary_node" → c ≠ "area" → c ≠ "boundary_perim" → (A v).get? c = none := by
  intro A
  set perim := fun v => geo.length v - ∑ w ∈ G.neighbors v, (shared.get? (sortPair (v, w))).getD 0 with hperim
  obtain ⟨fb, hfb⟩ : ∃ fb : V → Dict String AttrVal → Dict String AttrVal, fb = fun v d => if geo.onOuter v = true then
      (d.set "boundary_node" (.bool (geo.onOuter v))).set "boundary_perim" (.num (perim v)) else d.set "boundary_node" (.bool (geo.onOuter v)) := ⟨_, rfl⟩
  obtain ⟨fa, hfa⟩ : ∃ fa : V → Dict String AttrVal → Dict String AttrVal, fa = fun v d => if v ∈ G.nodes then
      d.set "area" (.num (geo.area v)) else d := ⟨_, rfl⟩
  have h1 : addBoundaryPerimeters G shared geo (fun _ => Dict.empty) =
      (iter G.nodes).foldl (fun A v => Function.update A v (fb v (A v))) (fun _ => Dict.empty) := by
    unfold addBoundaryPerimeters
    congr 1
    funext A v
    rw [hfb]
    by_cases ho : geo.onOuter v = true
    · simp only [if_pos ho, Function.update_idem, Function.update_self, hperim]
    · simp only [if_neg ho]
  have h2 : ∀ A0 : V → Dict String AttrVal, addAreas G geo A0 = (iter geo.ids).foldl (fun A v => Function.update A v (fa v (A v))) A0 := by
    intro A0
    unfold addAreas
    congr 1
    funext A v
    rw [hfa]
    by_cases hv : v ∈ G.nodes
    · simp only [if_pos hv]
    · simp only [if_neg hv, Function.update_eq_self]
  have hA : A v = if v ∈ geo.ids then fa v (fb v Dict.empty) else Dict.empty := by
    show addAreas G geo (addBoundaryPerimeters G shared geo (fun _ => Dict.empty)) v = _
    rw [h2, foldl_update _ _ (nodup_iter _), h1, foldl_update _ _ (nodup_iter _)]
    simp only [mem_iter, hG]
    split_ifs <;> rfl
  refine ⟨fun hv => ?_, fun c c1 c2 c3 => ?_⟩
  · rw [hA, if_pos hv, hfa, hfb]
    simp only [hG, if_pos hv]
    by_cases ho : geo.onOuter v = true
    · simp [ho, Dict.get?_set, hperim]
    · simp [ho, Dict.get?_set]
  · rw [hA, hfa, hfb]
    by_cases hv : v ∈ geo.ids
    · by_cases ho : geo.onOuter v = true <;> simp [hG, hv, ho, Dict.get?_set, c1, c2, c3]
    · rw [if_neg hv]; rfl

/-- when `from_geodataframe` returns, and what -/
theorem fromGeodataframe_eq (geo projected : Geometries V) (df : DataFrame V AttrVal) (adjacency : String) (cols : Option (List String))
    (reproject ignoreErrors : Bool) :
    fromGeodataframe geo projected df adjacency cols reproject ignoreErrors =
      if (ignoreErrors = false ∧ geo.invalid ≠ []) ∨ (ignoreErrors = true ∧ reproject = true ∧ projected.invalid ≠ []) then .error .geometryError else
      buildGeoGraph (if reproject then projected else geo) df adjacency cols := by
  have hpos : ∀ g : Geometries V, 0 < g.invalid.length ↔ g.invalid ≠ [] := fun g => List.length_pos_iff
  unfold fromGeodataframe checkGeometries
  simp only [hpos]
  by_cases h1 : geo.invalid = [] <;> by_cases h2 : projected.invalid = [] <;> rcases ignoreErrors with _ | _ <;> rcases reproject with _ | _ <;>
    simp [h1, h2] <;> rfl

/-- what the second part returns -/
theorem buildGeoGraph_ok {geo : Geometries V} {df : DataFrame V AttrVal} {adjacency : String} {cols : Option (List String)} {g : GeoGraph V}
    (h : buildGeoGraph geo df adjacency cols = .ok g) :
    ∃ adj, geoNeighbors geo adjacency = .ok adj ∧ g.graph = graphOf adj ∧ g.shared = sharedOf adj ∧
      addData (graphOf adj).nodes df cols
        (addAreas (graphOf adj) geo (addBoundaryPerimeters (graphOf adj) (sharedOf adj) geo (fun _ => Dict.empty))) = (.ok (), g.attrs) := by
  unfold buildGeoGraph at h
  rcases ha : geoNeighbors geo adjacency with e | adj
  · rw [ha] at h; cases h
  · rw [ha] at h
    refine ⟨adj, rfl, ?_⟩
    dsimp only at h
    rcases hd : addData (graphOf adj).nodes df cols
        (addAreas (graphOf adj) geo (addBoundaryPerimeters (graphOf adj) (sharedOf adj) geo (fun _ => Dict.empty))) with ⟨_ | ⟨⟩, A⟩
    · rw [hd] at h; cases h
    · rw [hd] at h
      cases h
      exact ⟨rfl, rfl, rfl⟩

theorem buildGeoGraph_ne (geo : Geometries V) (df : DataFrame V AttrVal) (adjacency : String) (cols : Option (List String)) :
    buildGeoGraph geo df adjacency cols ≠ .error .geometryError := by
  intro h
  unfold buildGeoGraph at h
  rcases ha : geoNeighbors geo adjacency with e | adj
  · rw [ha] at h
    cases h
    unfold geoNeighbors at ha
    split_ifs at ha <;> cases ha
  · rw [ha] at h
    dsimp only at h
    obtain ⟨t1, t2, t3⟩ := addData_spec (graphOf adj).nodes df cols
      (addAreas (graphOf adj) geo (addBoundaryPerimeters (graphOf adj) (sharedOf adj) geo (fun _ => Dict.empty)))
    by_cases hf : ∀ c ∈ cols.getD df.columns, c ∈ df.columns
    · by_cases hn : (df.rows.map (·.1)).Nodup
      · obtain ⟨attrs', k1, -⟩ := t3 hf hn
        rw [k1] at h; cases h
      · rw [t2 hf hn] at h; cases h
    · rw [t1 hf] at h; cases h

/-- the table is added to the computed attributes -/
theorem fromGeodataframe_ok {geo projected : Geometries V} {df : DataFrame V AttrVal} {adjacency : String} {cols : Option (List String)}
    {reproject ignoreErrors : Bool} {g : GeoGraph V}
    (hg : fromGeodataframe geo projected df adjacency cols reproject ignoreErrors = .ok g) :
    ∃ adj, geoNeighbors (if reproject then projected else geo) adjacency = .ok adj ∧ g.graph = graphOf adj ∧ g.shared = sharedOf adj ∧
      let A := addAreas (graphOf adj) (if reproject then projected else geo)
        (addBoundaryPerimeters (graphOf adj) (sharedOf adj) (if reproject then projected else geo) (fun _ => Dict.empty))
      (∀ r ∈ df.rows, r.1 ∈ (graphOf adj).nodes → ∀ c ∈ df.columns, (g.attrs r.1).get? c = some (r.2 c)) ∧
      ∀ v c, v ∉ (graphOf adj).nodes ∨ v ∉ df.rows.map (·.1) ∨ c ∉ df.columns → (g.attrs v).get? c = (A v).get? c := by
  rw [fromGeodataframe_eq] at hg
  by_cases h : (ignoreErrors = false ∧ geo.invalid ≠ []) ∨ (ignoreErrors = true ∧ reproject = true ∧ projected.invalid ≠ [])
  · rw [if_pos h] at hg; cases hg
  · rw [if_neg h] at hg
    obtain ⟨adj, h1, h2, h3, h4⟩ := buildGeoGraph_ok hg
    refine ⟨adj, h1, h2, h3, ?_⟩
    intro A
    obtain ⟨t1, t2, t3⟩ := addData_spec (graphOf adj).nodes df cols A
    have h4' : addData (graphOf adj).nodes df cols A = (.ok (), g.attrs) := h4
    by_cases hf : ∀ c ∈ cols.getD df.columns, c ∈ df.columns
    · by_cases hn : (df.rows.map (·.1)).Nodup
      · obtain ⟨attrs', k1, k2, k3⟩ := t3 hf hn
        rw [h4'] at k1
        cases k1
        exact ⟨k2, k3⟩
      · rw [t2 hf hn] at h4'; cases h4'
    · rw [t1 hf] at h4'; cases h4'

/-- The polygons cover the plane region without overlapping: the boundary of a polygon consists of the parts it shares with other polygons and of the
part `outer v` on the outside, and a polygon with a positive such part is recognised. -/
structure Geometries.Tessellates (geo : Geometries V) (outer : V → ℚ) : Prop where
  length : ∀ v ∈ geo.ids, geo.length v = outer v + ∑ w ∈ geo.ids.erase v, geo.interLength v w
  recognised : ∀ v ∈ geo.ids, outer v ≠ 0 → geo.onOuter v = true

/-- the graphs that `from_geodataframe` makes: adjacency `R` between rook and queen adjacency -/
theorem geoGraph_spec {geo : Geometries V} (h : geo.Sound) {adjacency : String} {adj : Dict V (Dict V ℚ)} (ha : geoNeighbors geo adjacency = .ok adj) :
    (graphOf adj).WF ∧ (graphOf adj).nodes = geo.ids ∧ (∀ i j, (graphOf adj).Adj i j → i ≠ j) ∧
    (∀ i j, (graphOf adj).Adj i j → (sharedOf adj).get? (sortPair (i, j)) = some (geo.interLength i j)) ∧
    ∀ i ∈ geo.ids, ∀ j ∈ geo.ids, i ≠ j → ¬ (graphOf adj).Adj i j → geo.interLength i j = 0 := by
  obtain ⟨h0, ⟨a, ra, a1, a2, a3, a4⟩, ⟨b, rb, b1, b2, b3, b4⟩⟩ := C85_adjacency geo h
  by_cases hr : adjacency = "rook"
  · subst hr
    rw [ra] at ha; cases ha
    refine ⟨a1, a2, fun i j hij => ((a3 i j).1 hij).2.2.1, a4, fun i hi j hj hne hn => ?_⟩
    by_contra hz
    exact hn ((a3 i j).2 ⟨hi, hj, hne, lt_of_le_of_ne (h.length_nonneg i j) (Ne.symm hz)⟩)
  · by_cases hq : adjacency = "queen"
    · subst hq
      rw [rb] at ha; cases ha
      refine ⟨b1, b2, fun i j hij => ((b3 i j).1 hij).2.2.1, b4, fun i hi j hj hne hn => ?_⟩
      apply h.length_empty
      by_contra hz
      exact hn ((b3 i j).2 ⟨hi, hj, hne, by simpa using hz⟩)
    · rw [h0 _ hr hq] at ha; cases ha

/-- **C86** (partial) When `from_geodataframe` returns a graph and the table has no column named `boundary_node`, `boundary_perim` or `area`, every node
has the area of its polygon, `boundary_node` says whether the polygon lies on the outside, and `boundary_perim` is the length of its part of the outer
boundary.  Missing: columns with these names replace the computed values. -/
theorem C86_attributes_partial (geo projected : Geometries V) (df : DataFrame V AttrVal) (adjacency : String) (cols : Option (List String))
    (reproject ignoreErrors : Bool) (outer : V → ℚ)
    (h : (if reproject then projected else geo).Sound) (ht : (if reproject then projected else geo).Tessellates outer)
    (hcol : "boundary_node" ∉ df.columns ∧ "boundary_perim" ∉ df.columns ∧ "area" ∉ df.columns) (g : GeoGraph V)
    (hg : fromGeodataframe geo projected df adjacency cols reproject ignoreErrors = .ok g) (v : V)
    (hv : v ∈ (if reproject then projected else geo).ids) :
    (g.attrs v).get? "area" = some (.num ((if reproject then projected else geo).area v)) ∧
    (g.attrs v).get? "boundary_node" = some (.bool ((if reproject then projected else geo).onOuter v)) ∧
    (g.attrs v).get? "boundary_perim" = if (if reproject then projected else geo).onOuter v then some (.num (outer v)) else none := by
  obtain ⟨adj, ha, -, -, -, k3⟩ := fromGeodataframe_ok hg
  generalize (if reproject then projected else geo) = geo' at *
  obtain ⟨g1, g2, g3, g4, g5⟩ := geoGraph_spec h ha
  obtain ⟨u1, u2, u3⟩ := (geoAttrs_spec (graphOf adj) (sharedOf adj) geo' g2 v).1 hv
  refine ⟨?_, ?_, ?_⟩
  · rw [k3 _ _ (.inr (.inr hcol.2.2)), u2]
  · rw [k3 _ _ (.inr (.inr hcol.1)), u1]
  · rw [k3 _ _ (.inr (.inr hcol.2.1)), u3]
    have hsum : ∑ w ∈ (graphOf adj).neighbors v, ((sharedOf adj).get? (sortPair (v, w))).getD 0 =
        ∑ w ∈ geo'.ids.erase v, geo'.interLength v w := by
      have hsub : (graphOf adj).neighbors v ⊆ geo'.ids.erase v := by
        intro w hw
        rw [Graph.mem_neighbors g1] at hw
        rw [Finset.mem_erase]
        exact ⟨(g3 v w hw).symm, by rw [← g2]; exact (g1.mem_of_adj hw).2⟩
      rw [← Finset.sum_subset hsub]
      · apply Finset.sum_congr rfl
        intro w hw
        rw [Graph.mem_neighbors g1] at hw
        rw [g4 v w hw]; rfl
      · intro w hw hn
        rw [Finset.mem_erase] at hw
        rw [Graph.mem_neighbors g1] at hn
        exact g5 v hv w hw.2 (Ne.symm hw.1) hn
    rw [hsum, ht.length v hv, add_sub_cancel_right]

/-- the length of the outline of a set of polygons: its part of the outer boundary and what it shares with polygons that do not belong to it -/
def outline (geo : Geometries V) (outer : V → ℚ) (s : Finset V) : ℚ := ∑ v ∈ s, (outer v + ∑ w ∈ geo.ids \ s, geo.interLength v w)

theorem sum_cutsTouching {G : Graph V} (hG : G.WF) {m : Dict V P} {p : P} {s : Finset V} (hs : ∀ c, c ∈ s ↔ m.get? c = some p)
    (hsub : s ⊆ G.nodes) {f : V × V → ℚ} {L : V → V → ℚ} (hf : ∀ i j, G.Adj i j → f (sortPair (i, j)) = L i j)
    (h0 : ∀ i ∈ G.nodes, ∀ j ∈ G.nodes, i ≠ j → ¬ G.Adj i j → L i j = 0) :
    ∑ e ∈ cutsTouching G m p, f e = ∑ v ∈ s, ∑ w ∈ G.nodes \ s, L v w := by
  rw [← Finset.sum_product']
  have hfil : ∑ x ∈ s ×ˢ (G.nodes \ s), L x.1 x.2 = ∑ x ∈ (s ×ˢ (G.nodes \ s)).filter (fun x => G.Adj x.1 x.2), L x.1 x.2 := by
    rw [Finset.sum_filter]
    apply Finset.sum_congr rfl
    rintro ⟨v, w⟩ hx
    rw [Finset.mem_product, Finset.mem_sdiff] at hx
    split_ifs with ha
    · rfl
    · exact h0 v (hsub hx.1) w hx.2.1 (by rintro rfl; exact hx.2.2 hx.1) ha
  rw [hfil]
  symm
  apply Finset.sum_nbij sortPair
  · rintro ⟨v, w⟩ hx
    simp only [Finset.mem_filter, Finset.mem_product, Finset.mem_sdiff] at hx
    obtain ⟨⟨hv, hw, hw'⟩, ha⟩ := hx
    have h1 : m.get? v = some p := (hs v).1 hv
    have h2 : m.get? w ≠ some p := fun e => hw' ((hs w).2 e)
    unfold cutsTouching
    rw [Finset.mem_filter, mem_cutsOf]
    unfold IsSortedEdge sortPair
    split_ifs with hle
    · exact ⟨⟨⟨hle, ha⟩, by rw [h1]; exact Ne.symm h2⟩, .inl h1⟩
    · exact ⟨⟨⟨(not_le.1 hle).le, ha.symm⟩, by simp only [h1]; exact h2⟩, .inr h1⟩
  · rintro ⟨v, w⟩ hx ⟨v', w'⟩ hx' he
    simp only [Finset.coe_filter, Finset.mem_product, Finset.mem_sdiff, Set.mem_setOf_eq] at hx hx'
    rcases sortPair_eq_or (v, w) with h2 | h2 <;> rcases sortPair_eq_or (v', w') with h3 | h3 <;> rw [h2, h3] at he <;> cases he
    · rfl
    · exact absurd hx.1.1 hx'.1.2.2
    · exact absurd hx.1.1 hx'.1.2.2
    · rfl
  · rintro ⟨a, b⟩ he
    have he' : (a, b) ∈ cutsTouching G m p := he
    unfold cutsTouching at he'
    rw [Finset.mem_filter, mem_cutsOf] at he'
    obtain ⟨⟨⟨hle, ha⟩, hne⟩, hp⟩ := he'
    obtain ⟨n1, n2⟩ := hG.mem_of_adj ha
    simp only [Set.mem_image, Finset.coe_filter, Finset.mem_product, Finset.mem_sdiff, Set.mem_setOf_eq, Prod.exists]
    rcases hp with hp | hp
    · refine ⟨a, b, ⟨⟨(hs a).2 hp, n2, fun h => hne ?_⟩, ha⟩, by unfold sortPair; rw [if_pos hle]⟩
      rw [(hs b).1 h]; exact hp
    · refine ⟨b, a, ⟨⟨(hs b).2 hp, n1, fun h => hne ?_⟩, ha.symm⟩, ?_⟩
      · rw [(hs a).1 h]; exact hp.symm
      · rw [sortPair_comm]; unfold sortPair; rw [if_pos hle]
  · rintro ⟨v, w⟩ hx
    simp only [Finset.mem_filter] at hx
    exact (hf v w hx.2).symm

/-- boundary and shared perimeters of a district of polygons add up to the length of its outline; its areas are those of the polygons -/
theorem geo_perimeter_sum {geo projected : Geometries V} {df : DataFrame V AttrVal} {adjacency : String} {cols : Option (List String)}
    {reproject ignoreErrors : Bool} {outer : V → ℚ}
    (h : (if reproject then projected else geo).Sound) (ht : (if reproject then projected else geo).Tessellates outer)
    (hcol : "boundary_node" ∉ df.columns ∧ "boundary_perim" ∉ df.columns ∧ "area" ∉ df.columns) {g : GeoGraph V}
    (hg : fromGeodataframe geo projected df adjacency cols reproject ignoreErrors = .ok g)
    {ups : List Key} {ops : List (Op V P)} (hops : ∀ op ∈ ops, op.WF) {p : ℕ} {v : View V P}
    (hv : (Heap.after g.data ups ops).frame.view p = some v) :
    g.data.graph.WF ∧ (∀ part s, v.assignment.parts.get? part = some s →
      s ⊆ (if reproject then projected else geo).ids ∧
      (∀ c ∈ s, g.data.col "area" c = (((if reproject then projected else geo).area c : ℚ) : Num)) ∧
      ∑ n ∈ s.filter (fun n => g.data.boundaryNode n), g.data.boundaryPerim n +
        ∑ e ∈ cutsTouching g.data.graph v.assignment.mapping part, g.data.sharedPerim e =
      outline (if reproject then projected else geo) outer s) := by
  have hat := C86_attributes_partial geo projected df adjacency cols reproject ignoreErrors outer h ht hcol g hg
  obtain ⟨adj, ha, hgr, hsh, -⟩ := fromGeodataframe_ok hg
  generalize (if reproject then projected else geo) = geo' at *
  obtain ⟨g1, g2, g3, g4, g5⟩ := geoGraph_spec h ha
  have hwf : g.data.graph.WF := by show g.graph.WF; rw [hgr]; exact g1
  have hnodes : g.data.graph.nodes = geo'.ids := by show g.graph.nodes = _; rw [hgr]; exact g2
  obtain ⟨hi, hdat, -⟩ := after_inv (P := P) (ups := ups) hwf hops
  have hc := hi.frame.coherent p v hv
  have hcov := hi.frame.covers p v hv
  rw [hdat] at hcov
  refine ⟨hwf, fun part s hs => ?_⟩
  have hsub : s ⊆ g.data.graph.nodes := by
    intro c hc'
    exact (hcov c).1 (Dict.mem_keys_iff.2 ⟨part, (hc.agree part s hs c).1 hc'⟩)
  refine ⟨hnodes ▸ hsub, fun c hc' => ?_, ?_⟩
  · unfold GeoGraph.data
    simp only [(hat c (hnodes ▸ hsub hc')).1]
    rfl
  rw [sum_cutsTouching hwf (hc.agree part s hs) hsub (L := geo'.interLength), hnodes]
  · unfold outline
    rw [Finset.sum_add_distrib]
    congr 1
    rw [Finset.sum_filter]
    apply Finset.sum_congr rfl
    intro c hc'
    have hcid : c ∈ geo'.ids := hnodes ▸ hsub hc'
    obtain ⟨-, a2, a3⟩ := hat c hcid
    show (if decide ((g.attrs c).get? "boundary_node" = some (.bool true)) = true then (match (g.attrs c).get? "boundary_perim" with
      | some (.num q) => q
      | _ => 0) else 0) = outer c
    rw [a2, a3]
    rcases ho : geo'.onOuter c with _ | _
    · simp only [Bool.false_eq_true, if_false, Option.some.injEq, AttrVal.bool.injEq, decide_false]
      by_contra hne
      rw [ht.recognised c hcid (fun e => hne e.symm)] at ho
      cases ho
    · simp
  · intro i j hij
    show (g.shared.get? (sortPair (i, j))).getD 0 = _
    have hij' : (graphOf adj).Adj i j := by rw [← hgr]; exact hij
    rw [hsh, g4 i j hij']; rfl
  · intro i hi j hj hne hn
    have hn' : ¬ (graphOf adj).Adj i j := by rw [← hgr]; exact hn
    exact g5 i (hnodes ▸ hi) j (hnodes ▸ hj) hne hn'

/-- **C86** (partial, with the same restriction) In every history of partitions of the graph that `from_geodataframe` returns, with rook or
queen adjacency, the reported perimeter of a district is the length of the outline of its polygons. -/
theorem C86_perimeter_partial (geo projected : Geometries V) (df : DataFrame V AttrVal) (adjacency : String) (cols : Option (List String))
    (reproject ignoreErrors : Bool) (outer : V → ℚ)
    (h : (if reproject then projected else geo).Sound) (ht : (if reproject then projected else geo).Tessellates outer)
    (hcol : "boundary_node" ∉ df.columns ∧ "boundary_perim" ∉ df.columns ∧ "area" ∉ df.columns) (g : GeoGraph V)
    (hg : fromGeodataframe geo projected df adjacency cols reproject ignoreErrors = .ok g)
    (ups : List Key) (ops : List (Op V P)) (hops : ∀ op ∈ ops, op.WF) (p : ℕ) (v : View V P)
    (hv : (Heap.after g.data ups ops).frame.view p = some v) (limit : ℕ) (x : Val V P)
    (hx : (Heap.after g.data ups ops).lookup p .perimeter limit = .ok x) :
    ∃ d, x = .rats d ∧ ∀ part s, v.assignment.parts.get? part = some s →
      d.get? part = some (outline (if reproject then projected else geo) outer s) := by
  obtain ⟨hwf, hs'⟩ := geo_perimeter_sum h ht hcol hg hops hv
  obtain ⟨d, rfl, hd⟩ := (C09_boundaries_exact hwf hops hv limit).2.2.1 x hx
  exact ⟨d, rfl, fun part s hs => by rw [hd part s hs, (hs' part s hs).2.2]⟩

/-- **C86** fails when the table has a column named `area` (`boundary_node`, `boundary_perim`): its cells replace the computed values, also when the
column was not requested in `cols_to_add`. -/
theorem C86_overwrite_violation (geo projected : Geometries V) (df : DataFrame V AttrVal) (adjacency : String) (cols : Option (List String))
    (reproject ignoreErrors : Bool) (h : (if reproject then projected else geo).Sound) (g : GeoGraph V)
    (hg : fromGeodataframe geo projected df adjacency cols reproject ignoreErrors = .ok g) (r : V × (String → AttrVal)) (hr : r ∈ df.rows)
    (hid : r.1 ∈ (if reproject then projected else geo).ids) (c : String) (hc : c ∈ df.columns) :
    (g.attrs r.1).get? c = some (r.2 c) := by
  obtain ⟨adj, ha, -, -, k2, -⟩ := fromGeodataframe_ok hg
  obtain ⟨-, g2, -⟩ := geoGraph_spec h ha
  exact k2 r hr (g2 ▸ hid) c hc

/-! ### C87: invalid geometries -/

theorem invalid_ne_nil {geo : Geometries V} : geo.invalid ≠ [] ↔ ∃ v ∈ geo.ids, geo.valid v = false := by
  unfold Geometries.invalid
  rw [ne_eq, List.filter_eq_nil_iff]
  simp

/-- **C87** (partial) Without reprojection: with `ignore_errors=False` a table with an invalid geometry is rejected with a `GeometryError`, with
`ignore_errors=True` no `GeometryError` is raised.  Missing: with reprojection. -/
theorem C87_validation_partial (geo projected : Geometries V) (df : DataFrame V AttrVal) (adjacency : String) (cols : Option (List String))
    (ignoreErrors : Bool) :
    fromGeodataframe geo projected df adjacency cols false ignoreErrors = .error .geometryError ↔
      ignoreErrors = false ∧ ∃ v ∈ geo.ids, geo.valid v = false := by
  rw [fromGeodataframe_eq, ← invalid_ne_nil]
  by_cases h : ignoreErrors = false ∧ geo.invalid ≠ []
  · rw [if_pos (.inl h)]
    exact ⟨fun _ => h, fun _ => rfl⟩
  · rw [if_neg (by rintro (h' | ⟨-, h', -⟩) <;> [exact h h'; cases h'])]
    exact ⟨fun hx => absurd hx (buildGeoGraph_ne _ _ _ _), fun h' => absurd h' h⟩

/-- **C87** fails with reprojection, where the test of `ignore_errors` is the wrong way round: with `ignore_errors=True` a geometry that is invalid after
the reprojection raises `GeometryError`; with `ignore_errors=False` it is not even looked at: the result is the same as if the geometry were valid. -/
theorem C87_reprojection_violation (geo projected : Geometries V) (df : DataFrame V AttrVal) (adjacency : String) (cols : Option (List String))
    (hbad : ∃ v ∈ projected.ids, projected.valid v = false) :
    fromGeodataframe geo projected df adjacency cols true true = .error .geometryError ∧
    fromGeodataframe geo projected df adjacency cols true false =
      fromGeodataframe geo { projected with valid := fun _ => true } df adjacency cols true false := by
  constructor
  · rw [fromGeodataframe_eq, if_pos (.inr ⟨rfl, rfl, invalid_ne_nil.2 hbad⟩)]
  · rw [fromGeodataframe_eq, fromGeodataframe_eq]
    simp only [Bool.false_eq_true, false_and, or_false, true_and, if_true]
    rfl

/-! ### Examples: three unit squares in a row and a fourth one above the last, meeting the second in a point -/

/-- positions 0 1 2 and 3 above 2 -/
def exGeo : Geometries (Fin 4) where
  ids := {0, 1, 2, 3}
  isEmpty _ := false
  valid _ := true
  query _ := [0, 1, 2, 3]
  interEmpty i j := !decide (i = j ∨ (i, j) ∈ ([(0, 1), (1, 0), (1, 2), (2, 1), (2, 3), (3, 2), (1, 3), (3, 1)] : List (Fin 4 × Fin 4)))
  interLength i j := if (i, j) ∈ ([(0, 1), (1, 0), (1, 2), (2, 1), (2, 3), (3, 2)] : List (Fin 4 × Fin 4)) then 1 else 0
  length _ := 4
  area _ := 1
  onOuter _ := true

/-- the exposed sides -/
def exOuter : Fin 4 → ℚ := ![3, 2, 2, 3]

example : exGeo.Sound := by constructor <;> decide +kernel

example : exGeo.Tessellates exOuter := by constructor <;> decide +kernel

/-- a table with a population, and one with the areas in other units -/
def exGeoTable (extra : List String) : DataFrame (Fin 4) AttrVal where
  columns := "pop" :: extra
  rows := [(0, fun _ => .num 10), (1, fun _ => .num 10), (2, fun _ => .num 10), (3, fun _ => .num 10)]

/-- queen adjacency joins 1 and 3, rook adjacency does not; all outputs are computed -/
example : (graphOf (rook exGeo)).edges = {(0, 1), (1, 2), (2, 3)} ∧ (graphOf (queen exGeo)).edges = {(0, 1), (1, 2), (2, 3), (1, 3)} ∧
    ((fromGeodataframe exGeo exGeo (exGeoTable []) "queen" none false false).map (fun g => (g.attrs 1).get? "boundary_perim")) = .ok (some (.num 2)) := by
  decide +kernel

/-- the hypotheses of `C86_perimeter_partial` can be met; the district {2, 3} has perimeter 6 -/
example : ∃ g, fromGeodataframe exGeo exGeo (exGeoTable []) "queen" none false false = .ok g ∧ outline exGeo exOuter {2, 3} = 6 ∧
    (Heap.after g.data [.cutEdges, .cutEdgesByPart, .boundaryNodes, .extBoundary, .intBoundary, .perimeter]
      [Op.create (⟨[(0, 7), (1, 7), (2, 8), (3, 8)]⟩ : Dict (Fin 4) ℕ)]).lookup 0 .perimeter 9 = .ok (.rats ⟨[(7, 6), (8, 6)]⟩) := by
  refine ⟨_, rfl, ?_, ?_⟩ <;> decide +kernel

/-- `cols_to_add=["pop"]`, but the column `area` replaces the area 1 of node 0 by 10 -/
example : ((fromGeodataframe exGeo exGeo (exGeoTable ["area"]) "rook" (some ["pop"]) false false).map (fun g => (g.attrs 0).get? "area")) =
    .ok (some (.num 10)) ∧ exGeo.area 0 = 1 := by decide +kernel

/-- node 3 becomes invalid by the reprojection: rejected with `ignore_errors=True`, accepted with `ignore_errors=False` -/
example : ((fromGeodataframe exGeo { exGeo with valid := fun v => v ≠ 3 } (exGeoTable []) "rook" none true true).map (fun _ => ())) =
      .error .geometryError ∧
    ((fromGeodataframe exGeo { exGeo with valid := fun v => v ≠ 3 } (exGeoTable []) "rook" none true false).map (fun _ => ())) = .ok () := by
  decide +kernel

end GC

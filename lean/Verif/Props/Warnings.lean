import Verif.Model.Warnings
import Verif.Props.Geo
import Mathlib.Logic.Relation

/-!
# C111: what the warnings say when a graph is made
-/

set_option linter.unusedSectionVars false
set_option autoImplicit false

namespace GC

variable {V W : Type} [LinearOrder V]

/-- What is assumed of shapely in addition: areas are symmetric, and an intersection with an area is not empty. -/
structure Geometries.AreaSound (geo : Geometries V) (interArea : V → V → ℚ) : Prop where
  comm : ∀ i j, interArea i j = interArea j i
  nonempty : ∀ i j, 0 < interArea i j → geo.interEmpty i j = false

theorem mem_foldl_gather {α β : Type} [DecidableEq β] (f : α → Finset β) (l : List α) (s : Finset β) (x : β) :
    x ∈ l.foldl (fun s i => s ∪ f i) s ↔ x ∈ s ∨ ∃ i ∈ l, x ∈ f i := by
  induction l generalizing s with
  | nil => simp
  | cons a l ih =>
    rw [List.foldl_cons, ih, Finset.mem_union, or_assoc]
    simp

/-- the pairs of polygons that overlap, each once -/
theorem mem_overlapPairs {geo : Geometries V} {interArea : V → V → ℚ} (h : geo.Sound) (ha : geo.AreaSound interArea) (i j : V) :
    (i, j) ∈ overlapPairs geo interArea ↔ i ∈ geo.ids ∧ j ∈ geo.ids ∧ i < j ∧ 0 < interArea i j := by
  have hn : ∀ i ∈ geo.ids, ∀ j, (j ∈ (geo.neighboring i).filter (fun j => decide (0 < interArea i j)) ↔ j ∈ geo.ids ∧ i ≠ j ∧ 0 < interArea i j) := by
    intro i hi j
    unfold Geometries.neighboring
    simp only [List.mem_filter, Bool.and_eq_true, Bool.not_eq_true', decide_eq_true_eq]
    constructor
    · rintro ⟨⟨h1, -, h3⟩, h4⟩
      exact ⟨h.query_sub i j h1, fun e => h3 e.symm, h4⟩
    · rintro ⟨h1, h2, h3⟩
      have h4 := ha.nonempty i j h3
      refine ⟨⟨h.query_complete i hi j h1 h2 h4, ?_, fun e => h2 e.symm⟩, h3⟩
      rcases he : geo.isEmpty j with _ | _
      · rfl
      · rw [h.empty i j he] at h4; cases h4
  unfold overlapPairs
  rw [mem_foldl_gather]
  simp only [Finset.notMem_empty, false_or, List.mem_toFinset, List.mem_map]
  constructor
  · rintro ⟨u, hu, v, hv, he⟩
    rw [mem_iter] at hu
    obtain ⟨h1, h2, h3⟩ := (hn u hu v).1 hv
    unfold sortPair at he
    rcases lt_or_gt_of_ne h2 with hlt | hlt
    · rw [if_pos hlt.le] at he
      cases he
      exact ⟨hu, h1, hlt, h3⟩
    · rw [if_neg (not_le.2 hlt)] at he
      cases he
      exact ⟨h1, hu, hlt, by rw [ha.comm]; exact h3⟩
  · rintro ⟨h1, h2, h3, h4⟩
    refine ⟨i, mem_iter.2 h1, j, (hn i h1 j).2 ⟨h2, h3.ne, h4⟩, ?_⟩
    unfold sortPair
    rw [if_pos h3.le]

theorem mem_checkDataframe (isNa : W → Bool) (df : DataFrame V W) (w : GraphWarning V) :
    w ∈ checkDataframe isNa df ↔ ∃ c, w = .na c ∧ c ∈ df.columns ∧ ∃ r ∈ df.rows, isNa (r.2 c) = true := by
  unfold checkDataframe
  rw [List.mem_flatMap]
  constructor
  · rintro ⟨c, hc, hw⟩
    split_ifs at hw with h
    · obtain ⟨r, hr⟩ := List.exists_mem_of_length_pos h
      rw [List.mem_filter] at hr
      exact ⟨c, List.mem_singleton.1 hw, hc, r, hr⟩
    · simp at hw
  · rintro ⟨c, rfl, hc, r, hr, hn⟩
    refine ⟨c, hc, ?_⟩
    rw [if_pos (List.length_pos_of_mem (List.mem_filter.2 ⟨hr, hn⟩))]
    exact List.mem_singleton.2 rfl

theorem addDataWarned_fst (isNa : W → Bool) (nodes : Finset V) (df : DataFrame V W) (columns : Option (List String)) (attrs : V → Dict String W) :
    (addDataWarned isNa nodes df columns attrs).1 = addData nodes df columns attrs := by
  unfold addDataWarned addData
  rcases h : df.select (columns.getD df.columns) with e | df'
  · rfl
  · rcases h' : df.toDictIndex with e | d
    · show _ = M.bind _ _ _
      simp only [M.bind, M.lift, h']
      rfl
    · show _ = M.bind _ _ _
      simp only [M.bind, M.lift, h']
      rfl

theorem joinDataWarned_fst (isNa : V → Bool) (nodes : Finset V) (df : DataFrame V V) (columns : Option (List String)) (left right : Option String)
    (attrs : V → Dict String V) : (joinDataWarned isNa nodes df columns left right attrs).1 = joinData nodes df columns left right attrs := by
  unfold joinDataWarned joinData
  rcases h : joinTable df columns right with e | df'
  · rfl
  · show _ = M.bind _ _ _
    simp only [M.bind, M.lift]
    rcases h' : joinRows df'.toDict (idsToIndex nodes attrs left) with e | d
    · show _ = M.bind _ _ _
      simp only [M.bind, M.lift, M.read, h']
      rfl
    · show _ = M.bind _ _ _
      simp only [M.bind, M.lift, M.read, h']
      rfl

section geo
variable {geo projected : Geometries V} {df : DataFrame V AttrVal} {adjacency : String} {cols : Option (List String)} {reproject ignoreErrors hasCrs : Bool}
  {interArea : V → V → ℚ} {isNa : AttrVal → Bool}

theorem warned_result : (fromGeodataframeWarned interArea isNa hasCrs geo projected df adjacency cols reproject ignoreErrors).1 =
    fromGeodataframe geo projected df adjacency cols reproject ignoreErrors := by
  unfold fromGeodataframeWarned fromGeodataframe buildGeoGraph
  rcases checkGeometries geo projected reproject ignoreErrors with e | geo'
  · rfl
  · show (match geoNeighbors geo' adjacency with
      | .error e => ((.error e, []) : Py (GeoGraph V) × List (GraphWarning V))
      | .ok adj => _).1 = match geoNeighbors geo' adjacency with
      | .error e => .error e
      | .ok adj => _
    rcases geoNeighbors geo' adjacency with e | adj
    · rfl
    · dsimp only
      rw [← addDataWarned_fst isNa]
      rcases addDataWarned isNa _ df cols _ with ⟨⟨_ | ⟨⟨⟩⟩, a⟩, w⟩ <;> rfl

/-- the log of a run that returns a graph -/
theorem warned_log {g : GeoGraph V} (hg : fromGeodataframe geo projected df adjacency cols reproject ignoreErrors = .ok g) :
    (fromGeodataframeWarned interArea isNa hasCrs geo projected df adjacency cols reproject ignoreErrors).2 =
      warnForOverlaps (if reproject then projected else geo) interArea ++ warnForIslands g.graph ++ checkDataframe isNa ⟨cols.getD df.columns, df.rows⟩ ++
        (if hasCrs then [] else [.noCrs]) := by
  have hok := warned_result (interArea := interArea) (isNa := isNa) (hasCrs := hasCrs) (geo := geo) (projected := projected) (df := df) (adjacency := adjacency)
    (cols := cols) (reproject := reproject) (ignoreErrors := ignoreErrors)
  rw [hg] at hok
  have hgeo : ∀ geo', checkGeometries geo projected reproject ignoreErrors = .ok geo' → geo' = if reproject then projected else geo := by
    intro geo' h
    unfold checkGeometries at h
    split_ifs at h <;> cases h <;> simp_all
  unfold fromGeodataframeWarned at hok ⊢
  rcases hc : checkGeometries geo projected reproject ignoreErrors with e | geo'
  · rw [hc] at hok; cases hok
  · rw [hc] at hok
    obtain rfl := hgeo geo' hc
    dsimp only at hok ⊢
    rcases hn : geoNeighbors (if reproject then projected else geo) adjacency with e | adj
    · rw [hn] at hok; cases hok
    · rw [hn] at hok
      dsimp only at hok ⊢
      unfold addDataWarned at hok ⊢
      have hsel : ∀ df', df.select (cols.getD df.columns) = .ok df' → df' = ⟨cols.getD df.columns, df.rows⟩ := by
        intro df' h
        unfold DataFrame.select at h
        split_ifs at h
        cases h; rfl
      rcases hs : df.select (cols.getD df.columns) with e | df'
      · rw [hs] at hok; cases hok
      · rw [hs] at hok
        obtain rfl := hsel df' hs
        dsimp only at hok ⊢
        rcases hd : df.toDictIndex with e | d
        · rw [hd] at hok; cases hok
        · rw [hd] at hok
          dsimp only at hok ⊢
          cases hok
          rfl

end geo

/-! ### The theorems -/

/-- **C111** (the warnings) A run of `from_geodataframe` that returns a graph warns for overlaps exactly if two polygons overlap, and names exactly the overlapping pairs, each
once; for islands exactly if a polygon has no neighbour in the graph, and names exactly these; for a column asked for exactly if it has a missing value; and for a missing
coordinate reference system.  Raising the warnings does not change the result. -/
theorem C111_warnings (geo projected : Geometries V) (df : DataFrame V AttrVal) (adjacency : String) (cols : Option (List String)) (reproject ignoreErrors hasCrs : Bool)
    (interArea : V → V → ℚ) (isNa : AttrVal → Bool) (h : (if reproject then projected else geo).Sound) (ha : (if reproject then projected else geo).AreaSound interArea) :
    let run := fromGeodataframeWarned interArea isNa hasCrs geo projected df adjacency cols reproject ignoreErrors
    let ids := (if reproject then projected else geo).ids
    run.1 = fromGeodataframe geo projected df adjacency cols reproject ignoreErrors ∧
    ∀ g, run.1 = .ok g →
      (∀ pairs, .overlaps pairs ∈ run.2 ↔ pairs.Nonempty ∧ ∀ i j, (i, j) ∈ pairs ↔ i ∈ ids ∧ j ∈ ids ∧ i < j ∧ 0 < interArea i j) ∧
      (∀ nodes, .islands nodes ∈ run.2 ↔ nodes.Nonempty ∧ ∀ v, v ∈ nodes ↔ v ∈ ids ∧ ∀ u, ¬ g.graph.Adj v u) ∧
      (∀ c, .na c ∈ run.2 ↔ c ∈ cols.getD df.columns ∧ ∃ r ∈ df.rows, isNa (r.2 c) = true) ∧
      (.noCrs ∈ run.2 ↔ hasCrs = false) := by
  intro run ids
  refine ⟨warned_result, fun g hg => ?_⟩
  have hg' : fromGeodataframe geo projected df adjacency cols reproject ignoreErrors = .ok g := by rw [← hg]; exact warned_result.symm
  have hlog : run.2 = _ := warned_log (interArea := interArea) (isNa := isNa) (hasCrs := hasCrs) hg'
  obtain ⟨adj, had, hgr, -⟩ := fromGeodataframe_ok hg'
  obtain ⟨g1, g2, -⟩ := geoGraph_spec h had
  rw [← hgr] at g1 g2
  have hov : ∀ w, w ∈ warnForOverlaps (if reproject then projected else geo) interArea ↔
      w = .overlaps (overlapPairs (if reproject then projected else geo) interArea) ∧ (overlapPairs (if reproject then projected else geo) interArea).Nonempty := by
    intro w
    generalize (if reproject then projected else geo) = geo'
    unfold warnForOverlaps
    split_ifs with hc <;> rw [Finset.card_pos] at hc <;> simp [hc]
  have his : ∀ w, w ∈ warnForIslands g.graph ↔ w = .islands g.graph.islands ∧ g.graph.islands.Nonempty := by
    intro w
    unfold warnForIslands
    split_ifs with hc <;> rw [Finset.card_pos] at hc <;> simp [hc]
  have hmi : ∀ v, v ∈ g.graph.islands ↔ v ∈ ids ∧ ∀ u, ¬ g.graph.Adj v u := by
    intro v
    unfold Graph.islands
    rw [Finset.mem_filter, g2, Finset.card_eq_zero, Finset.eq_empty_iff_forall_notMem]
    exact and_congr_right (fun _ => forall_congr' (fun u => by rw [Graph.mem_neighbors g1]))
  have hcr : ∀ w : GraphWarning V, w ∈ (if hasCrs then [] else [.noCrs] : List (GraphWarning V)) ↔ w = .noCrs ∧ hasCrs = false := by
    intro w; cases hasCrs <;> simp
  have hmem : ∀ w, w ∈ run.2 ↔ (w = .overlaps (overlapPairs (if reproject then projected else geo) interArea) ∧ (overlapPairs (if reproject then projected else geo) interArea).Nonempty) ∨
      (w = .islands g.graph.islands ∧ g.graph.islands.Nonempty) ∨ (∃ c, w = .na c ∧ c ∈ cols.getD df.columns ∧ ∃ r ∈ df.rows, isNa (r.2 c) = true) ∨ (w = .noCrs ∧ hasCrs = false) := by
    intro w
    rw [hlog, List.mem_append, List.mem_append, List.mem_append, hov, his, mem_checkDataframe, hcr]
    simp only [or_assoc]
  refine ⟨fun pairs => ?_, fun nodes => ?_, fun c => ?_, ?_⟩
  · rw [hmem]
    simp only [GraphWarning.overlaps.injEq, reduceCtorEq, false_and, exists_false, or_false]
    constructor
    · rintro ⟨rfl, hne⟩
      exact ⟨hne, fun i j => mem_overlapPairs h ha i j⟩
    · rintro ⟨hne, hp⟩
      have : pairs = overlapPairs (if reproject then projected else geo) interArea := by
        ext ⟨i, j⟩
        rw [hp, mem_overlapPairs h ha]
      exact ⟨this, this ▸ hne⟩
  · rw [hmem]
    simp only [GraphWarning.islands.injEq, reduceCtorEq, false_and, exists_false, or_false, false_or]
    constructor
    · rintro ⟨rfl, hne⟩
      exact ⟨hne, hmi⟩
    · rintro ⟨hne, hp⟩
      have : nodes = g.graph.islands := by
        ext v
        rw [hp, hmi]
      exact ⟨this, this ▸ hne⟩
  · rw [hmem]
    simp
  · rw [hmem]
    simp

/-- **C111** (islands and connectivity) A connected graph of two or more polygons raises no warning for islands. -/
theorem C111_connected (geo projected : Geometries V) (df : DataFrame V AttrVal) (adjacency : String) (cols : Option (List String)) (reproject ignoreErrors hasCrs : Bool)
    (interArea : V → V → ℚ) (isNa : AttrVal → Bool) (h : (if reproject then projected else geo).Sound) (ha : (if reproject then projected else geo).AreaSound interArea)
    (g : GeoGraph V) (hg : (fromGeodataframeWarned interArea isNa hasCrs geo projected df adjacency cols reproject ignoreErrors).1 = .ok g)
    (htwo : 2 ≤ (if reproject then projected else geo).ids.card)
    (hcon : ∀ u ∈ (if reproject then projected else geo).ids, ∀ v ∈ (if reproject then projected else geo).ids, Relation.ReflTransGen g.graph.Adj u v) (nodes : Finset V) :
    .islands nodes ∉ (fromGeodataframeWarned interArea isNa hasCrs geo projected df adjacency cols reproject ignoreErrors).2 := by
  obtain ⟨-, hw⟩ := C111_warnings geo projected df adjacency cols reproject ignoreErrors hasCrs interArea isNa h ha
  obtain ⟨-, h2, -⟩ := hw g hg
  rw [h2]
  rintro ⟨⟨v, hv⟩, hn⟩
  obtain ⟨h3, h4⟩ := (hn v).1 hv
  obtain ⟨u, hu, hne⟩ := Finset.exists_mem_ne (lt_of_lt_of_le Nat.one_lt_two htwo) v
  rcases Relation.ReflTransGen.cases_head (hcon v h3 u hu) with heq | ⟨w, hvw, -⟩
  · exact hne heq.symm
  · exact h4 w hvw

/-- **C111** (missing values, all columns) If no columns are chosen, every missing value that a node of the graph has from the table has been warned about. -/
theorem C111_na_partial (geo projected : Geometries V) (df : DataFrame V AttrVal) (adjacency : String) (reproject ignoreErrors hasCrs : Bool)
    (interArea : V → V → ℚ) (isNa : AttrVal → Bool) (h : (if reproject then projected else geo).Sound) (ha : (if reproject then projected else geo).AreaSound interArea)
    (g : GeoGraph V) (hg : (fromGeodataframeWarned interArea isNa hasCrs geo projected df adjacency none reproject ignoreErrors).1 = .ok g)
    (v : V) (hv : v ∈ (if reproject then projected else geo).ids) (hrow : v ∈ df.rows.map (·.1)) (c : String) (hc : c ∈ df.columns) (x : AttrVal) (hx : (g.attrs v).get? c = some x)
    (hna : isNa x = true) : .na c ∈ (fromGeodataframeWarned interArea isNa hasCrs geo projected df adjacency none reproject ignoreErrors).2 := by
  obtain ⟨h0, hw⟩ := C111_warnings geo projected df adjacency none reproject ignoreErrors hasCrs interArea isNa h ha
  obtain ⟨-, -, h3, -⟩ := hw g hg
  rw [h3]
  obtain ⟨r, hr, rfl⟩ := List.mem_map.1 hrow
  rw [h0] at hg
  obtain ⟨adj, had, -, -, k2, -⟩ := fromGeodataframe_ok hg
  obtain ⟨-, g2, -⟩ := geoGraph_spec h had
  have := k2 r hr (g2 ▸ hv) c hc
  rw [hx] at this
  cases this
  exact ⟨hc, r, hr, hna⟩

/-- **C111** fails when columns are chosen: the missing values of the others are added to the graph without a warning. -/
theorem C111_na_violation (geo projected : Geometries V) (df : DataFrame V AttrVal) (adjacency : String) (cols : List String) (reproject ignoreErrors hasCrs : Bool)
    (interArea : V → V → ℚ) (isNa : AttrVal → Bool) (h : (if reproject then projected else geo).Sound) (ha : (if reproject then projected else geo).AreaSound interArea)
    (g : GeoGraph V) (hg : (fromGeodataframeWarned interArea isNa hasCrs geo projected df adjacency (some cols) reproject ignoreErrors).1 = .ok g)
    (r : V × (String → AttrVal)) (hr : r ∈ df.rows) (hv : r.1 ∈ (if reproject then projected else geo).ids) (c : String) (hc : c ∈ df.columns) (hcols : c ∉ cols) :
    (g.attrs r.1).get? c = some (r.2 c) ∧
    .na c ∉ (fromGeodataframeWarned interArea isNa hasCrs geo projected df adjacency (some cols) reproject ignoreErrors).2 := by
  obtain ⟨h0, hw⟩ := C111_warnings geo projected df adjacency (some cols) reproject ignoreErrors hasCrs interArea isNa h ha
  obtain ⟨-, -, h3, -⟩ := hw g hg
  rw [h3]
  rw [h0] at hg
  obtain ⟨adj, had, -, -, k2, -⟩ := fromGeodataframe_ok hg
  obtain ⟨-, g2, -⟩ := geoGraph_spec h had
  exact ⟨k2 r hr (g2 ▸ hv) c hc, fun hh => hcols hh.1⟩

/-- **C111** (`join`) `Graph.join` gives a node no missing value without a warning about the column, and warns about no other column. -/
theorem C111_join (isNa : V → Bool) (nodes : Finset V) (df : DataFrame V V) (columns : Option (List String)) (left right : Option String) (attrs : V → Dict String V) :
    let run := joinDataWarned isNa nodes df columns left right attrs
    run.1 = joinData nodes df columns left right attrs ∧
    (run.1.1 = .ok () → (∀ v c x, (run.1.2 v).get? c = some x → isNa x = true → (attrs v).get? c = some x ∨ .na c ∈ run.2) ∧
      ∀ w ∈ run.2, ∃ c, w = .na c ∧ c ∈ joinCols df columns right ∧ ∃ r ∈ df.rows, isNa (r.2 c) = true) := by
  intro run
  have hfst : run.1 = _ := joinDataWarned_fst isNa nodes df columns left right attrs
  refine ⟨hfst, fun hok => ?_⟩
  obtain ⟨hbad, hgood⟩ := C83_join nodes df columns left right attrs
  by_cases hff : ((∀ c, right = some c → c ∈ df.columns) ∧ ∀ c ∈ joinCols df columns right, c ∈ df.columns ∧ right ≠ some c) ∧
      (joinCols df columns right = [] ∨ ∀ v ∈ nodes, ∀ k, nodeKey attrs left v = some k → lastRow df right k ≠ none)
  · obtain ⟨attrs', ha, hspec⟩ := hgood hff
    have htab := (join_table df columns right).2 hff.1
    have hlog : run.2 = checkDataframe isNa ⟨joinCols df columns right, df.rows.map (fun r => (rowKey right r, r.2))⟩ := by
      show (joinDataWarned isNa nodes df columns left right attrs).2 = _
      unfold joinDataWarned
      rw [htab]
      dsimp only
      rcases joinRows _ _ with e | d <;> rfl
    have hna : ∀ w, w ∈ run.2 ↔ ∃ c, w = .na c ∧ c ∈ joinCols df columns right ∧ ∃ r ∈ df.rows, isNa (r.2 c) = true := by
      intro w
      rw [hlog, mem_checkDataframe]
      refine exists_congr (fun c => and_congr_right (fun _ => and_congr_right (fun _ => ⟨?_, ?_⟩)))
      · rintro ⟨r, hr, h⟩
        obtain ⟨r', hr', rfl⟩ := List.mem_map.1 hr
        exact ⟨r', hr', h⟩
      · rintro ⟨r, hr, h⟩
        exact ⟨_, List.mem_map.2 ⟨r, hr, rfl⟩, h⟩
    refine ⟨fun v c x hx hnx => ?_, fun w hw => (hna w).1 hw⟩
    rw [hfst, ha] at hx
    rw [hspec v c] at hx
    split_ifs at hx with hc
    · rcases hrow : ((nodeKey attrs left v).bind (lastRow df right)) with _ | r
      · rw [hrow] at hx
        exact .inl (by simpa using hx)
      · rw [hrow] at hx
        change some (r c) = some x at hx
        cases hx
        obtain ⟨k, -, hk⟩ := Option.bind_eq_some_iff.1 hrow
        unfold lastRow at hk
        obtain ⟨r', hr', rfl⟩ := Option.map_eq_some_iff.1 hk
        exact .inr ((hna _).2 ⟨c, rfl, hc.2, r', List.mem_reverse.1 (List.mem_of_find?_eq_some hr'), hnx⟩)
    · exact .inl hx
  · rw [hfst, hbad hff] at hok
    cases hok

/-! ### Examples: polygons 0 and 1 overlap, 2 stands alone, 3 and 4 share a side -/

/-- five polygons -/
def warnGeo : Geometries (Fin 5) where
  ids := {0, 1, 2, 3, 4}
  isEmpty _ := false
  valid _ := true
  query _ := [0, 1, 2, 3, 4]
  interEmpty i j := !decide (i = j ∨ (i, j) ∈ ([(0, 1), (1, 0), (3, 4), (4, 3)] : List (Fin 5 × Fin 5)))
  interLength i j := if (i, j) ∈ ([(0, 1), (1, 0), (3, 4), (4, 3)] : List (Fin 5 × Fin 5)) then 1 else 0
  length _ := 4
  area _ := 1
  onOuter _ := true

/-- the areas of the intersections -/
def warnArea (i j : Fin 5) : ℚ := if (i, j) ∈ ([(0, 1), (1, 0)] : List (Fin 5 × Fin 5)) then 1 / 2 else 0

/-- a population, and a name that is missing for polygon 3 -/
def warnTable : DataFrame (Fin 5) AttrVal where
  columns := ["pop", "name"]
  rows := [0, 1, 2, 3, 4].map (fun i => (i, fun c => if c = "pop" then .num 10 else if i = 3 then .other "nan" else .other "x"))

example : warnGeo.Sound := by constructor <;> decide +kernel

example : warnGeo.AreaSound warnArea := by constructor <;> decide +kernel

/-- all columns: four warnings -/
example : (fromGeodataframeWarned warnArea (fun x => x = .other "nan") false warnGeo warnGeo warnTable "rook" none false false).2 =
    [.overlaps {(0, 1)}, .islands {2}, .na "name", .noCrs] := by
  decide +kernel

/-- `cols_to_add=["pop"]`: the missing name is added without a warning -/
example : (fromGeodataframeWarned warnArea (fun x => x = .other "nan") true warnGeo warnGeo warnTable "rook" (some ["pop"]) false false).2 =
      [.overlaps {(0, 1)}, .islands {2}] ∧
    ((fromGeodataframeWarned warnArea (fun x => x = .other "nan") true warnGeo warnGeo warnTable "rook" (some ["pop"]) false false).1.map
      (fun g => (g.attrs 3).get? "name")) = .ok (some (.other "nan")) := by
  decide +kernel

/-- connected or not, the four squares of `exGeo` have no islands -/
example : warnForIslands (graphOf (rook exGeo)) = [] := by
  rfl

/-- `join` by node id: node 2 gets the missing value 9 with a warning about the column -/
example : (joinDataWarned (V := Fin 10) (fun x => x = 9) {1, 2} ⟨["a", "b"], [(1, fun _ => 5), (2, fun c => if c = "b" then 9 else 5)]⟩ none none none (fun _ => Dict.empty)).2 = [.na "b"] := by
  rfl

end GC

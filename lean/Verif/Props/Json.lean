import Verif.Model.Json
import Verif.Props.Attributes

/-!
# What survives saving a graph and loading it again (C91)
-/

set_option linter.unusedSectionVars false
set_option autoImplicit false

namespace GC

/-! ### Dictionaries -/

theorem dict_filter_wf {K W : Type} [DecidableEq K] {d : Dict K W} (hd : d.WF) (p : K × W → Bool) :
    (⟨d.entries.filter p⟩ : Dict K W).WF := by
  unfold Dict.WF Dict.keys at *
  exact (List.filter_sublist.map _).nodup hd

theorem dict_get?_filter {K W : Type} [DecidableEq K] {d : Dict K W} (hd : d.WF) (p : K → W → Bool) (k : K) :
    (⟨d.entries.filter (fun e => p e.1 e.2)⟩ : Dict K W).get? k = (d.get? k).filter (p k) := by
  refine Option.ext fun v => ?_
  have h1 := Dict.mem_entries_iff (dict_filter_wf hd (fun e => p e.1 e.2)) (k := k) (v := v)
  rw [← h1, List.mem_filter, Dict.mem_entries_iff hd, Option.filter_eq_some_iff]

theorem dict_get?_map {K W U : Type} [DecidableEq K] (d : Dict K W) (f : W → U) (k : K) :
    (⟨d.entries.map (fun e => (e.1, f e.2))⟩ : Dict K U).get? k = (d.get? k).map f := by
  unfold Dict.get?
  rw [List.find?_map]
  simp [Function.comp_def, Option.map_map]

theorem dict_map_wf {K W U : Type} [DecidableEq K] {d : Dict K W} (hd : d.WF) (f : W → U) :
    (⟨d.entries.map (fun e => (e.1, f e.2))⟩ : Dict K U).WF := by
  unfold Dict.WF Dict.keys at *
  simpa [List.map_map, Function.comp_def] using hd

theorem foldl_set_dict {K W U : Type} [DecidableEq K] {d : Dict K W} (hd : d.WF) (f : W → U) (D : Dict K U) (k : K) :
    (d.entries.foldl (fun acc e => acc.set e.1 (f e.2)) D).get? k = ((d.get? k).map f).or (D.get? k) := by
  obtain ⟨l⟩ := d
  have hl : (l.map (·.1)).Nodup := hd
  clear hd
  unfold Dict.get? at *
  dsimp only
  induction l generalizing D with
  | nil => rfl
  | cons e l ih =>
    rw [List.map_cons, List.nodup_cons] at hl
    rw [List.foldl_cons, ih _ hl.2]
    have hset := Dict.get?_set D e.1 k (f e.2)
    unfold Dict.get? at hset
    rw [hset]
    by_cases hk : e.1 = k
    · have hnone : l.find? (fun e => decide (e.1 = k)) = none := by
        rw [List.find?_eq_none]
        intro x hx
        have : x.1 ≠ k := fun h => hl.1 (List.mem_map.2 ⟨x, hx, h.trans hk.symm⟩)
        simpa using this
      rw [hnone]
      simp [hk]
    · have hk' : ¬ k = e.1 := fun h => hk h.symm
      simp [List.find?_cons, hk, hk']

theorem dict_get?_update {K W : Type} [DecidableEq K] (D : Dict K W) {d : Dict K W} (hd : d.WF) (k : K) :
    (D.update d).get? k = (d.get? k).or (D.get? k) := by
  have := foldl_set_dict hd id D k
  simpa [Dict.update] using this

theorem mapM_rel {A B : Type} {f : A → Py B} {l : List A} {R : A → B → Prop} (h : ∀ x ∈ l, ∃ y, f x = .ok y ∧ R x y) :
    ∃ l', l.mapM f = .ok l' ∧ List.Forall₂ R l l' := by
  induction l with
  | nil => exact ⟨[], rfl, .nil⟩
  | cons x l ih =>
    obtain ⟨y, hy, hr⟩ := h x List.mem_cons_self
    obtain ⟨l', h1, h2⟩ := ih (fun z hz => h z (List.mem_cons_of_mem _ hz))
    refine ⟨y :: l', ?_, .cons hr h2⟩
    rw [List.mapM_cons, hy, h1]; rfl

/-! ### Statement -/

/-- A graph as networkx keeps it: dictionaries have every key once, edges are stored in both directions with the same attributes, and their ends are nodes. -/
structure NxGraph.Valid (G : NxGraph) : Prop where
  nodes : G.nodes.WF
  adj : G.adj.WF
  nodeAttrs : ∀ x d, G.nodes.get? x = some d → d.WF
  edgeAttrs : ∀ x y d, G.adj.get? (x, y) = some d → d.WF
  symm : ∀ x y, G.adj.get? (x, y) = G.adj.get? (y, x)
  ends : ∀ x y d, G.adj.get? (x, y) = some d → x ∈ G.nodes.keys

/-- The names of attributes are strings other than `"id"`. -/
structure NxGraph.NamesOk (G : NxGraph) : Prop where
  node : ∀ x d, G.nodes.get? x = some d → ∀ k ∈ d.keys, ∃ s, k = .str s ∧ s ≠ "id"
  edge : ∀ x y d, G.adj.get? (x, y) = some d → ∀ k ∈ d.keys, ∃ s, k = .str s ∧ s ≠ "id"

/-- What is left of the value of an attribute of an edge after saving and loading: numpy integers are integers, tuples lists, and whatever JSON does not know is
`None`. -/
def loadedEdgeValue : PyVal → PyVal
  | .tuple l => .list l
  | .npInt n => .atom (.num n)
  | .geometry _ => .atom .null
  | .object _ => .atom .null
  | x => x

/-- What is left of the value of an attribute of a node: geometries are removed, or become GeoJSON; the rest as for edges. -/
def loadedNodeValue (geojson : Bool) : PyVal → Option PyVal
  | .geometry g => if geojson then some (.geojson g) else none
  | x => some (loadedEdgeValue x)

theorem jsonValue_eq (x : PyVal) : jsonValue x = loadedEdgeValue x := by cases x <;> rfl

/-! ### Saving -/

theorem jsonDict_eq {d : Attrs} (hn : ∀ k ∈ d.keys, ∃ s, k = AttrName.str s) :
    jsonDict d = .ok (d.entries.foldl (fun acc e => acc.set e.1 (jsonValue e.2)) Dict.empty) := by
  unfold jsonDict
  have hn' : ∀ e ∈ d.entries, ∃ s, e.1 = AttrName.str s := fun e he => hn e.1 (List.mem_map.2 ⟨e, he, rfl⟩)
  generalize d.entries = l at hn'
  generalize (Dict.empty : Attrs) = D
  induction l generalizing D with
  | nil => rfl
  | cons e l ih =>
    obtain ⟨s, hs⟩ := hn' e List.mem_cons_self
    rw [List.foldlM_cons, hs]
    simp only [jsonName, bind, Except.bind, pure, Except.pure]
    rw [List.foldl_cons, hs]
    exact ih (fun e' he' => hn' e' (List.mem_cons_of_mem _ he')) _

theorem jsonDict_ok {d : Attrs} (hd : d.WF) (hn : ∀ k ∈ d.keys, ∃ s, k = AttrName.str s) :
    ∃ d', jsonDict d = .ok d' ∧ d'.WF ∧ ∀ k, d'.get? k = (d.get? k).map jsonValue := by
  refine ⟨_, jsonDict_eq hn, foldl_set_wf _ _ _ _ Dict.wf_empty, fun k => ?_⟩
  rw [foldl_set_dict hd]; simp

/-- what is left of a node or an edge in the file: its label and the rest of its attributes -/
theorem popId_ok {d : Attrs} (hd : d.WF) {x : PyVal} (hx : d.get? idName = some x) :
    ∃ d', popId d = .ok (x, d') ∧ d'.WF ∧ ∀ k, d'.get? k = if k = idName then none else d.get? k := by
  refine ⟨⟨d.entries.filter (fun e => decide (e.1 ≠ idName))⟩, ?_, dict_filter_wf hd _, fun k => ?_⟩
  · unfold popId
    rw [Dict.get_eq_ok_iff.2 hx]; rfl
  · have := dict_get?_filter hd (fun k' _ => decide (k' ≠ idName)) k
    rw [this]
    by_cases hk : k = idName
    · simp only [hk, if_true]
      cases d.get? idName <;> simp [Option.filter]
    · simp only [hk, if_false]
      cases d.get? k <;> simp [Option.filter, hk]

/-- the file has the label `x` and the attributes `f` -/
def IsSaved (x : PyVal) (f : AttrName → Option PyVal) (d : Attrs) : Prop :=
  ∃ d', popId d = .ok (x, d') ∧ d'.WF ∧ ∀ k, d'.get? k = f k

theorem names_set {d : Attrs} {x : PyVal} (hn : ∀ k ∈ d.keys, ∃ s, k = AttrName.str s ∧ s ≠ "id") :
    ∀ k ∈ (d.set idName x).keys, ∃ s, k = AttrName.str s := by
  intro k hk
  rcases Dict.mem_keys_set.1 hk with rfl | hk
  · exact ⟨"id", rfl⟩
  · obtain ⟨s, hs, _⟩ := hn k hk
    exact ⟨s, hs⟩

theorem get?_id_none {d : Attrs} (hn : ∀ k ∈ d.keys, ∃ s, k = AttrName.str s ∧ s ≠ "id") : d.get? idName = none := by
  rw [Dict.get?_eq_none_iff]
  intro h
  obtain ⟨s, hs, hne⟩ := hn _ h
  exact hne (by injection hs with h; exact h.symm)

theorem isSaved_edge {d : Attrs} (hd : d.WF) (hn : ∀ k ∈ d.keys, ∃ s, k = AttrName.str s ∧ s ≠ "id") (x : PyVal) :
    ∃ d', jsonDict (d.set idName x) = .ok d' ∧ IsSaved (jsonValue x) (fun k => (d.get? k).map loadedEdgeValue) d' := by
  obtain ⟨d1, h1, h2, h3⟩ := jsonDict_ok (hd.set idName x) (names_set (x := x) hn)
  refine ⟨d1, h1, ?_⟩
  obtain ⟨d2, h4, h5, h6⟩ := popId_ok h2 (x := jsonValue x) (by rw [h3]; simp)
  refine ⟨d2, h4, h5, fun k => ?_⟩
  rw [h6, h3]
  by_cases hk : k = idName
  · simp [hk, get?_id_none hn]
  · rw [if_neg hk, Dict.get?_set_ne _ _ hk]
    show _ = (d.get? k).map loadedEdgeValue
    cases d.get? k <;> simp [jsonValue_eq]

/-- the function that `to_json` applies to the dictionary of every node -/
def nodeStep (geojson : Bool) (d : Attrs) : Attrs :=
  if geojson then ⟨d.entries.map (fun e => (e.1, geoInterface e.2))⟩ else ⟨d.entries.filter (fun e => !isGeometry e.2)⟩

theorem nodeStep_get? (geojson : Bool) {d : Attrs} (hd : d.WF) (k : AttrName) :
    (nodeStep geojson d).get? k = (d.get? k).bind (fun x => if geojson then some (geoInterface x) else if isGeometry x then none else some x) := by
  unfold nodeStep
  cases geojson with
  | true =>
    simp only [if_true, dict_get?_map]
    cases d.get? k <;> rfl
  | false =>
    simp only [Bool.false_eq_true, if_false]
    rw [dict_get?_filter hd (fun _ x => !isGeometry x)]
    rcases d.get? k with _ | x
    · rfl
    · rcases h : isGeometry x with _ | _ <;> simp [Option.filter, h]

theorem nodeStep_wf (geojson : Bool) {d : Attrs} (hd : d.WF) : (nodeStep geojson d).WF := by
  unfold nodeStep
  cases geojson with
  | true => exact dict_map_wf hd _
  | false => exact dict_filter_wf hd _

theorem isSaved_node (geojson : Bool) {d : Attrs} (hd : d.WF) (hn : ∀ k ∈ d.keys, ∃ s, k = AttrName.str s ∧ s ≠ "id") {x : PyVal}
    (hx : isGeometry x = false) :
    ∃ d', jsonDict (nodeStep geojson (d.set idName x)) = .ok d' ∧
      IsSaved (jsonValue x) (fun k => (d.get? k).bind (loadedNodeValue geojson)) d' := by
  have hwf := nodeStep_wf geojson (hd.set idName x)
  have hnames : ∀ k ∈ (nodeStep geojson (d.set idName x)).keys, ∃ s, k = AttrName.str s := by
    intro k hk
    obtain ⟨v, hv⟩ := Dict.mem_keys_iff.1 hk
    rw [nodeStep_get? geojson (hd.set idName x)] at hv
    refine names_set (x := x) hn k (Dict.mem_keys_iff.2 ?_)
    rcases h : (d.set idName x).get? k with _ | y
    · rw [h] at hv; simp at hv
    · exact ⟨y, rfl⟩
  obtain ⟨d1, h1, h2, h3⟩ := jsonDict_ok hwf hnames
  refine ⟨d1, h1, ?_⟩
  have hgeo : geoInterface x = x := by cases x <;> first | rfl | (simp [isGeometry] at hx)
  obtain ⟨d2, h4, h5, h6⟩ := popId_ok h2 (x := jsonValue x) (by
    rw [h3, nodeStep_get? geojson (hd.set idName x)]
    simp [hx, hgeo])
  refine ⟨d2, h4, h5, fun k => ?_⟩
  rw [h6, h3, nodeStep_get? geojson (hd.set idName x)]
  by_cases hk : k = idName
  · simp [hk, get?_id_none hn]
  · rw [if_neg hk, Dict.get?_set_ne _ _ hk]
    show _ = (d.get? k).bind (loadedNodeValue geojson)
    rcases d.get? k with _ | v
    · rfl
    · cases v <;> cases geojson <;> rfl

theorem toJson_ok {G : NxGraph} (hG : G.Valid) (hN : G.NamesOk) (hlab : ∀ x ∈ G.nodes.keys, isGeometry x = false) (geojson : Bool) :
    ∃ data, toJson G geojson = .ok data ∧
      List.Forall₂ (fun e d => IsSaved (jsonValue e.1) (fun k => (e.2.get? k).bind (loadedNodeValue geojson)) d) G.nodes.entries data.nodes ∧
      List.Forall₂ (fun (e : PyVal × Attrs) row => List.Forall₂ (fun (a : (PyVal × PyVal) × Attrs) d =>
          IsSaved (jsonValue a.1.2) (fun k => (a.2.get? k).map loadedEdgeValue) d) (G.adj.entries.filter (fun a => a.1.1 = e.1)) row)
        G.nodes.entries data.adjacency := by
  obtain ⟨ns, n1, n2⟩ := mapM_rel (f := fun e : PyVal × Attrs => jsonDict (nodeStep geojson (e.2.set idName e.1))) (l := G.nodes.entries)
    (R := fun e d => IsSaved (jsonValue e.1) (fun k => (e.2.get? k).bind (loadedNodeValue geojson)) d) (by
      intro e he
      have hget := Dict.get?_of_mem_entries hG.nodes he
      exact isSaved_node geojson (hG.nodeAttrs _ _ hget) (hN.node _ _ hget) (hlab _ (Dict.mem_keys_iff.2 ⟨_, hget⟩)))
  obtain ⟨rs, r1, r2⟩ := mapM_rel (f := fun e : PyVal × Attrs =>
      ((G.adj.entries.filter (fun a => a.1.1 = e.1)).map (fun a => a.2.set idName a.1.2)).mapM jsonDict) (l := G.nodes.entries)
    (R := fun e row => List.Forall₂ (fun (a : (PyVal × PyVal) × Attrs) d =>
          IsSaved (jsonValue a.1.2) (fun k => (a.2.get? k).map loadedEdgeValue) d) (G.adj.entries.filter (fun a => a.1.1 = e.1)) row) (by
      intro e he
      obtain ⟨row, w1, w2⟩ := mapM_rel (f := fun a : (PyVal × PyVal) × Attrs => jsonDict (a.2.set idName a.1.2))
        (l := G.adj.entries.filter (fun a => a.1.1 = e.1))
        (R := fun a d => IsSaved (jsonValue a.1.2) (fun k => (a.2.get? k).map loadedEdgeValue) d) (by
          intro a ha
          obtain ⟨⟨x, y⟩, d⟩ := a
          have hget := Dict.get?_of_mem_entries hG.adj (List.mem_of_mem_filter ha)
          exact isSaved_edge (hG.edgeAttrs _ _ _ hget) (hN.edge _ _ _ hget) y)
      refine ⟨row, ?_, w2⟩
      rw [List.mapM_map]
      exact w1)
  refine ⟨⟨ns, rs⟩, ?_, n2, r2⟩
  have hnodes : (if geojson = true then convertGeometries (adjacencyData G) else removeGeometries (adjacencyData G)).nodes =
      G.nodes.entries.map (fun e => nodeStep geojson (e.2.set idName e.1)) := by
    cases geojson <;> simp [convertGeometries, removeGeometries, adjacencyData, nodeStep, Function.comp_def]
  have hadj : (if geojson = true then convertGeometries (adjacencyData G) else removeGeometries (adjacencyData G)).adjacency =
      G.nodes.entries.map (fun e => (G.adj.entries.filter (fun a => a.1.1 = e.1)).map (fun a => a.2.set idName a.1.2)) := by
    cases geojson <;> rfl
  unfold toJson
  simp only [hnodes, hadj]
  rw [List.mapM_map, List.mapM_map]
  simp only [Function.comp_def]
  rw [n1]
  simp only [bind, Except.bind]
  rw [r1]
  rfl

/-! ### Loading -/

/-- a label that networkx accepts and that JSON leaves alone -/
def GoodLabel (x : PyVal) : Prop := ∃ a, x = .atom a ∧ a ≠ .null

theorem addNxNode_ok {x : PyVal} (hx : GoodLabel x) (G : NxGraph) :
    addNxNode x G = .ok (if G.nodes.contains x then G else { G with nodes := G.nodes.set x Dict.empty }) := by
  obtain ⟨a, rfl, ha⟩ := hx
  cases a <;> first | rfl | exact absurd rfl ha

theorem addNxNode_mem {x : PyVal} (hx : GoodLabel x) {G : NxGraph} (h : x ∈ G.nodes.keys) : addNxNode x G = .ok G := by
  rw [addNxNode_ok hx, if_pos (Dict.contains_iff.2 h)]

theorem loadNode_ok {st : NxGraph × List PyVal} {x : PyVal} (hx : GoodLabel x) (hnew : x ∉ st.1.nodes.keys) (hwf : st.1.nodes.WF)
    {f : AttrName → Option PyVal} {d : Attrs} (hd : IsSaved x f d) :
    ∃ N a, loadNode st d = .ok (⟨N, st.1.adj⟩, st.2 ++ [x]) ∧ N.WF ∧ N.keys = st.1.nodes.keys ++ [x] ∧ N.get? x = some a ∧ (∀ k, a.get? k = f k) ∧
      ∀ y, y ≠ x → N.get? y = st.1.nodes.get? y := by
  obtain ⟨attrs, h1, h2, h3⟩ := hd
  have hc : ¬ st.1.nodes.contains x = true := fun h => hnew (Dict.contains_iff.1 h)
  refine ⟨(st.1.nodes.set x Dict.empty).modifyD x Dict.empty (fun a => a.update attrs), (Dict.empty : Attrs).update attrs, ?_, ?_, ?_, ?_, ?_, ?_⟩
  · unfold loadNode
    simp only [h1, bind, Except.bind, addNxNode_ok hx, if_neg hc]
    rfl
  · exact (hwf.set _ _).modifyD _ _ _
  · unfold Dict.modifyD
    rw [Dict.keys_set, Dict.keys_set]
    simp [hnew]
  · rw [Dict.get?_modifyD]; simp
  · intro k
    rw [dict_get?_update _ h2, h3]; simp
  · intro y hy
    rw [Dict.get?_modifyD, if_neg (by exact hy), Dict.get?_set_ne _ _ hy]

theorem loadNodes_ok (F : PyVal × Attrs → AttrName → Option PyVal) {l : List (PyVal × Attrs)} {ds : List Attrs}
    (h : List.Forall₂ (fun e d => IsSaved e.1 (F e) d) l ds) (hlab : ∀ e ∈ l, GoodLabel e.1) (hnd : (l.map (·.1)).Nodup)
    {st : NxGraph × List PyVal} (hwf : st.1.nodes.WF) (hdisj : ∀ e ∈ l, e.1 ∉ st.1.nodes.keys) :
    ∃ N, ds.foldlM loadNode st = .ok (⟨N, st.1.adj⟩, st.2 ++ l.map (·.1)) ∧ N.WF ∧ N.keys = st.1.nodes.keys ++ l.map (·.1) ∧
      (∀ e ∈ l, ∃ a, N.get? e.1 = some a ∧ ∀ k, a.get? k = F e k) ∧ ∀ y, y ∉ l.map (·.1) → N.get? y = st.1.nodes.get? y := by
  induction h generalizing st with
  | nil => exact ⟨st.1.nodes, by simp; rfl, hwf, by simp, by simp, by simp⟩
  | @cons e d l ds hed hl ih =>
    rw [List.map_cons, List.nodup_cons] at hnd
    obtain ⟨N1, a, h1, h2, h3, h4, h5, h6⟩ := loadNode_ok (hlab e List.mem_cons_self) (hdisj e List.mem_cons_self) hwf hed
    obtain ⟨N, g1, g2, g3, g4, g5⟩ := ih (fun e' he' => hlab e' (List.mem_cons_of_mem _ he')) hnd.2
      (st := (⟨N1, st.1.adj⟩, st.2 ++ [e.1])) h2 (by
        intro e' he' hmem
        simp only [h3, List.mem_append, List.mem_singleton] at hmem
        rcases hmem with hmem | hmem
        · exact hdisj e' (List.mem_cons_of_mem _ he') hmem
        · exact hnd.1 (hmem ▸ List.mem_map.2 ⟨e', he', rfl⟩))
    refine ⟨N, ?_, g2, ?_, ?_, ?_⟩
    · rw [List.foldlM_cons, h1]
      simp only [bind, Except.bind]
      rw [g1]
      simp
    · rw [g3, h3]; simp
    · intro e' he'
      rcases List.mem_cons.1 he' with rfl | he'
      · exact ⟨a, (g5 _ hnd.1).trans h4, h5⟩
      · exact g4 e' he'
    · intro y hy
      rw [List.map_cons, List.mem_cons, not_or] at hy
      rw [g5 y hy.2]
      exact h6 y hy.1

/-- the edges in `done` have been read, with the attributes `E` -/
def EdgesRead (E : PyVal → PyVal → Option (AttrName → Option PyVal)) (done : List (PyVal × PyVal)) (A : Dict (PyVal × PyVal) Attrs) : Prop :=
  ∀ x y, (((x, y) ∈ done ∨ (y, x) ∈ done) → ∃ d f, A.get? (x, y) = some d ∧ E x y = some f ∧ ∀ k, d.get? k = f k) ∧
    (¬ ((x, y) ∈ done ∨ (y, x) ∈ done) → A.get? (x, y) = none)

theorem loadEdge_ok {E : PyVal → PyVal → Option (AttrName → Option PyVal)} (hE : ∀ x y, E x y = E y x) {done : List (PyVal × PyVal)} {G : NxGraph}
    (hI : EdgesRead E done G.adj) {s t : PyVal} (hs : GoodLabel s) (ht : GoodLabel t) (hs' : s ∈ G.nodes.keys) (ht' : t ∈ G.nodes.keys)
    {f : AttrName → Option PyVal} (hf : E s t = some f) {d : Attrs} (hd : IsSaved t f d) :
    ∃ A, loadEdge s G d = .ok ⟨G.nodes, A⟩ ∧ EdgesRead E (done ++ [(s, t)]) A := by
  obtain ⟨attrs, h1, h2, h3⟩ := hd
  refine ⟨(G.adj.set (s, t) (((G.adj.get? (s, t)).getD Dict.empty).update attrs)).set (t, s)
    (((G.adj.get? (s, t)).getD Dict.empty).update attrs), ?_, ?_⟩
  · unfold loadEdge
    simp only [h1, bind, Except.bind, addNxNode_mem hs hs', addNxNode_mem ht ht']
    rfl
  · have hnew : ∀ k, ((((G.adj.get? (s, t)).getD Dict.empty).update attrs).get? k) = f k := by
      intro k
      rw [dict_get?_update _ h2, h3]
      by_cases hdone : (s, t) ∈ done ∨ (t, s) ∈ done
      · obtain ⟨d0, f0, e1, e2, e3⟩ := (hI s t).1 hdone
        rw [hf] at e2
        obtain rfl := Option.some.inj e2
        rw [e1, Option.getD_some, e3]
        cases f k <;> rfl
      · rw [(hI s t).2 hdone]; simp
    intro x y
    rw [Dict.get?_set, Dict.get?_set]
    by_cases h1' : (x, y) = (t, s)
    · obtain ⟨rfl, rfl⟩ := Prod.mk.inj h1'
      refine ⟨fun _ => ⟨_, f, by rw [if_pos rfl], by rw [hE]; exact hf, hnew⟩, fun h => absurd (.inr (by simp)) h⟩
    · by_cases h2' : (x, y) = (s, t)
      · obtain ⟨rfl, rfl⟩ := Prod.mk.inj h2'
        refine ⟨fun _ => ⟨_, f, by rw [if_neg h1', if_pos rfl], hf, hnew⟩, fun h => absurd (.inl (by simp)) h⟩
      · rw [if_neg h1', if_neg h2']
        have hiff : ((x, y) ∈ done ++ [(s, t)] ∨ (y, x) ∈ done ++ [(s, t)]) ↔ ((x, y) ∈ done ∨ (y, x) ∈ done) := by
          simp only [List.mem_append, List.mem_singleton]
          constructor
          · rintro ((h | h) | (h | h))
            · exact .inl h
            · exact absurd h h2'
            · exact .inr h
            · exact absurd (by obtain ⟨rfl, rfl⟩ := Prod.mk.inj h; rfl) h1'
          · rintro (h | h)
            · exact .inl (.inl h)
            · exact .inr (.inl h)
        rw [hiff]
        exact hI x y

theorem loadRow_ok {E : PyVal → PyVal → Option (AttrName → Option PyVal)} (hE : ∀ x y, E x y = E y x) {s : PyVal} (hs : GoodLabel s)
    {l : List ((PyVal × PyVal) × Attrs)} {row : List Attrs} {F : (PyVal × PyVal) × Attrs → AttrName → Option PyVal}
    (h : List.Forall₂ (fun a d => IsSaved a.1.2 (F a) d) l row) {G : NxGraph} (hs' : s ∈ G.nodes.keys)
    (hl : ∀ a ∈ l, a.1.1 = s ∧ GoodLabel a.1.2 ∧ a.1.2 ∈ G.nodes.keys ∧ E a.1.1 a.1.2 = some (F a))
    {done : List (PyVal × PyVal)} (hI : EdgesRead E done G.adj) :
    ∃ A, row.foldlM (loadEdge s) G = .ok ⟨G.nodes, A⟩ ∧ EdgesRead E (done ++ l.map (·.1)) A := by
  induction h generalizing G done with
  | nil => exact ⟨G.adj, rfl, by simpa using hI⟩
  | @cons a d l row had hrow ih =>
    obtain ⟨h1, h2, h3, h4⟩ := hl a List.mem_cons_self
    obtain ⟨A1, g1, g2⟩ := loadEdge_ok hE hI hs h2 hs' h3 (by rw [← h1]; exact h4) had
    obtain ⟨A, k1, k2⟩ := ih (G := ⟨G.nodes, A1⟩) hs' (fun a' ha' => hl a' (List.mem_cons_of_mem _ ha')) g2
    refine ⟨A, ?_, ?_⟩
    · rw [List.foldlM_cons, g1]; exact k1
    · have : (s, a.1.2) = a.1 := by rw [← h1]
      rw [List.map_cons, ← this]
      simpa using k2

theorem loadRows_ok {E : PyVal → PyVal → Option (AttrName → Option PyVal)} (hE : ∀ x y, E x y = E y x) {N : Dict PyVal Attrs}
    {F : (PyVal × PyVal) × Attrs → AttrName → Option PyVal} (adj : List ((PyVal × PyVal) × Attrs))
    {l : List (PyVal × Attrs)} {rows : List (List Attrs)}
    (h : List.Forall₂ (fun (e : PyVal × Attrs) row => List.Forall₂ (fun (a : (PyVal × PyVal) × Attrs) d => IsSaved a.1.2 (F a) d)
      (adj.filter (fun a => a.1.1 = e.1)) row) l rows)
    (hlab : ∀ e ∈ l, GoodLabel e.1 ∧ e.1 ∈ N.keys)
    (hadj : ∀ a ∈ adj, GoodLabel a.1.2 ∧ a.1.2 ∈ N.keys ∧ E a.1.1 a.1.2 = some (F a))
    (pre : List PyVal) {A : Dict (PyVal × PyVal) Attrs} {done : List (PyVal × PyVal)} (hI : EdgesRead E done A) :
    ∃ A', (rows.zipIdx pre.length).foldlM (fun G row => match (pre ++ l.map (·.1))[row.2]? with
        | some source => row.1.foldlM (loadEdge source) G
        | none => .error .indexError) (⟨N, A⟩ : NxGraph) = .ok ⟨N, A'⟩ ∧
      EdgesRead E (done ++ l.flatMap (fun e => (adj.filter (fun a => a.1.1 = e.1)).map (·.1))) A' := by
  induction h generalizing pre A done with
  | nil => exact ⟨A, rfl, by simpa using hI⟩
  | @cons e row l rows hrow hrows ih =>
    obtain ⟨A1, g1, g2⟩ := loadRow_ok hE (hlab e List.mem_cons_self).1 hrow (G := ⟨N, A⟩) (hlab e List.mem_cons_self).2 (by
      intro a ha
      obtain ⟨h1, h2⟩ := List.mem_filter.1 ha
      exact ⟨by simpa using h2, hadj a h1⟩) hI
    obtain ⟨A', k1, k2⟩ := ih (fun e' he' => hlab e' (List.mem_cons_of_mem _ he')) (pre ++ [e.1]) g2
    refine ⟨A', ?_, ?_⟩
    · rw [List.zipIdx_cons, List.foldlM_cons]
      have hget : (pre ++ (e :: l).map (·.1))[pre.length]? = some e.1 := by simp
      simp only [hget]
      rw [g1]
      simp only [bind, Except.bind]
      have hlen : (pre ++ [e.1]).length = pre.length + 1 := by simp
      have happ : pre ++ [e.1] ++ l.map (·.1) = pre ++ (e :: l).map (·.1) := by simp
      rw [hlen, happ] at k1
      exact k1
    · rw [List.flatMap_cons, ← List.append_assoc]
      exact k2

theorem forall₂_imp_mem {A B : Type} {R S : A → B → Prop} {l : List A} {l' : List B} (h : List.Forall₂ R l l')
    (himp : ∀ a ∈ l, ∀ b, R a b → S a b) : List.Forall₂ S l l' := by
  induction h with
  | nil => exact .nil
  | @cons a b l l' hab _ ih => exact .cons (himp a List.mem_cons_self b hab) (ih fun a' ha' => himp a' (List.mem_cons_of_mem _ ha'))

theorem jsonValue_good {x : PyVal} (hx : GoodLabel x) : jsonValue x = x := by
  obtain ⟨a, rfl, _⟩ := hx; rfl

/-- **C91**: a graph whose labels are strings, numbers or Booleans and whose attributes are named by strings other than `"id"` comes back from the file with the
same nodes in the same order, the same edges and the same attributes, up to the values that JSON does not know. -/
theorem C91_round_trip_partial {G : NxGraph} (hG : G.Valid) (hN : G.NamesOk) (hlab : ∀ x ∈ G.nodes.keys, ∃ a, x = .atom a ∧ a ≠ .null) (geojson : Bool) :
    ∃ G', saveAndLoad G geojson = .ok G' ∧ G'.nodes.keys = G.nodes.keys ∧
      (∀ x d, G.nodes.get? x = some d → ∃ d', G'.nodes.get? x = some d' ∧ ∀ k, d'.get? k = (d.get? k).bind (loadedNodeValue geojson)) ∧
      (∀ x y, G.adj.get? (x, y) = none → G'.adj.get? (x, y) = none) ∧
      (∀ x y d, G.adj.get? (x, y) = some d → ∃ d', G'.adj.get? (x, y) = some d' ∧ ∀ k, d'.get? k = (d.get? k).map loadedEdgeValue) := by
  have hgood : ∀ e ∈ G.nodes.entries, GoodLabel e.1 := fun e he => hlab e.1 (List.mem_map.2 ⟨e, he, rfl⟩)
  have hends : ∀ a ∈ G.adj.entries, a.1.1 ∈ G.nodes.keys ∧ a.1.2 ∈ G.nodes.keys := by
    intro a ha
    have hget := Dict.get?_of_mem_entries (k := (a.1.1, a.1.2)) hG.adj ha
    exact ⟨hG.ends _ _ _ hget, hG.ends _ _ _ ((hG.symm _ _).symm.trans hget)⟩
  obtain ⟨data, h1, h2, h3⟩ := toJson_ok hG hN (fun x hx => by obtain ⟨a, rfl, _⟩ := hlab x hx; rfl) geojson
  have h2' : List.Forall₂ (fun e d => IsSaved e.1 (fun k => (e.2.get? k).bind (loadedNodeValue geojson)) d) G.nodes.entries data.nodes :=
    forall₂_imp_mem h2 (fun e he d h => by rwa [jsonValue_good (hgood e he)] at h)
  have h3' : List.Forall₂ (fun (e : PyVal × Attrs) row => List.Forall₂ (fun (a : (PyVal × PyVal) × Attrs) d =>
          IsSaved a.1.2 (fun k => (a.2.get? k).map loadedEdgeValue) d) (G.adj.entries.filter (fun a => a.1.1 = e.1)) row)
        G.nodes.entries data.adjacency :=
    forall₂_imp_mem h3 (fun e he row h => forall₂_imp_mem h (fun a ha d h => by
      rwa [jsonValue_good (hlab _ (hends a (List.mem_of_mem_filter ha)).2)] at h))
  obtain ⟨N, n1, n2, n3, n4, -⟩ := loadNodes_ok (fun e k => (e.2.get? k).bind (loadedNodeValue geojson)) h2' hgood hG.nodes
    (st := (⟨Dict.empty, Dict.empty⟩, [])) Dict.wf_empty (by simp)
  simp only [List.nil_append, Dict.keys_empty] at n1 n3
  have hkeys : N.keys = G.nodes.keys := n3
  obtain ⟨A, a1, a2⟩ := loadRows_ok (E := fun x y => (G.adj.get? (x, y)).map (fun d k => (d.get? k).map loadedEdgeValue))
    (fun x y => by rw [hG.symm]) (N := N) G.adj.entries h3' (fun e he => ⟨hgood e he, by rw [hkeys]; exact List.mem_map.2 ⟨e, he, rfl⟩⟩)
    (fun a ha => ⟨hlab _ (hends a ha).2, by rw [hkeys]; exact (hends a ha).2, by
      rw [Dict.get?_of_mem_entries (k := (a.1.1, a.1.2)) hG.adj ha]; rfl⟩) [] (A := Dict.empty) (done := [])
    (fun x y => ⟨fun h => by simp at h, fun _ => rfl⟩)
  simp only [List.nil_append, List.length_nil] at a1 a2
  have hdone : ∀ x y, (x, y) ∈ G.nodes.entries.flatMap (fun e => (G.adj.entries.filter (fun a => a.1.1 = e.1)).map (·.1)) ↔
      ∃ d, G.adj.get? (x, y) = some d := by
    intro x y
    simp only [List.mem_flatMap, List.mem_map, List.mem_filter, decide_eq_true_eq]
    constructor
    · rintro ⟨e, _, a, ⟨ha, _⟩, hxy⟩
      exact ⟨a.2, Dict.get?_of_mem_entries hG.adj (by rw [← hxy]; exact ha)⟩
    · rintro ⟨d, hd⟩
      obtain ⟨e, he, hex⟩ := List.mem_map.1 (hG.ends x y d hd)
      exact ⟨e, he, ((x, y), d), ⟨Dict.mem_entries_of_get? hd, hex.symm⟩, rfl⟩
  refine ⟨⟨N, A⟩, ?_, hkeys, ?_, ?_, ?_⟩
  · unfold saveAndLoad
    rw [h1]
    simp only [bind, Except.bind]
    unfold adjacencyGraph
    rw [n1]
    simp only [bind, Except.bind]
    exact a1
  · intro x d hx
    exact n4 (x, d) (Dict.mem_entries_of_get? hx)
  · intro x y hxy
    refine (a2 x y).2 ?_
    rw [hdone, hdone, hG.symm y x, hxy]
    simp
  · intro x y d hxy
    obtain ⟨d', f, e1, e2, e3⟩ := (a2 x y).1 (.inl ((hdone x y).2 ⟨d, hxy⟩))
    refine ⟨d', e1, fun k => ?_⟩
    simp only [hxy, Option.map_some] at e2
    obtain rfl := Option.some.inj e2
    exact e3 k

/-! ### What a file can contain -/

/-- A value that JSON represents faithfully. -/
def Faithful (x : PyVal) : Prop := (∃ a, x = .atom a) ∨ (∃ l, x = .list l) ∨ ∃ g, x = .geojson g

/-- Graphs of which a file keeps everything: labels are strings, numbers or Booleans, attributes are named by strings other than `"id"`, and their values are
`None`, strings, numbers, Booleans, lists or GeoJSON. -/
structure NxGraph.Portable (G : NxGraph) : Prop where
  labels : ∀ x ∈ G.nodes.keys, ∃ a, x = .atom a ∧ a ≠ .null
  names : G.NamesOk
  nodeValues : ∀ x d, G.nodes.get? x = some d → ∀ k v, d.get? k = some v → Faithful v
  edgeValues : ∀ x y d, G.adj.get? (x, y) = some d → ∀ k v, d.get? k = some v → Faithful v

theorem loadedEdgeValue_faithful {x : PyVal} (hx : Faithful x) : loadedEdgeValue x = x := by
  rcases hx with ⟨a, rfl⟩ | ⟨l, rfl⟩ | ⟨g, rfl⟩ <;> rfl

theorem loadedNodeValue_faithful (geojson : Bool) {x : PyVal} (hx : Faithful x) : loadedNodeValue geojson x = some x := by
  rcases hx with ⟨a, rfl⟩ | ⟨l, rfl⟩ | ⟨g, rfl⟩ <;> rfl

theorem jsonValue_faithful (x : PyVal) : Faithful (jsonValue x) := by
  cases x
  case atom a => exact .inl ⟨_, rfl⟩
  case list l => exact .inr (.inl ⟨_, rfl⟩)
  case tuple l => exact .inr (.inl ⟨_, rfl⟩)
  case geojson g => exact .inr (.inr ⟨_, rfl⟩)
  case npInt n => exact .inl ⟨_, rfl⟩
  case geometry g => exact .inl ⟨_, rfl⟩
  case object k => exact .inl ⟨_, rfl⟩

/-- **C91**: of the graphs that are portable the file keeps everything. -/
theorem C91_portable {G : NxGraph} (hG : G.Valid) (hP : G.Portable) (geojson : Bool) :
    ∃ G', saveAndLoad G geojson = .ok G' ∧ G'.nodes.keys = G.nodes.keys ∧
      (∀ x d, G.nodes.get? x = some d → ∃ d', G'.nodes.get? x = some d' ∧ ∀ k, d'.get? k = d.get? k) ∧
      (∀ x y, G.adj.get? (x, y) = none → G'.adj.get? (x, y) = none) ∧
      (∀ x y d, G.adj.get? (x, y) = some d → ∃ d', G'.adj.get? (x, y) = some d' ∧ ∀ k, d'.get? k = d.get? k) := by
  obtain ⟨G', h1, h2, h3, h4, h5⟩ := C91_round_trip_partial hG hP.names hP.labels geojson
  refine ⟨G', h1, h2, ?_, h4, ?_⟩
  · intro x d hx
    obtain ⟨d', e1, e2⟩ := h3 x d hx
    refine ⟨d', e1, fun k => ?_⟩
    rw [e2]
    rcases h : d.get? k with _ | v
    · rfl
    · exact loadedNodeValue_faithful geojson (hP.nodeValues x d hx k v h)
  · intro x y d hx
    obtain ⟨d', e1, e2⟩ := h5 x y d hx
    refine ⟨d', e1, fun k => ?_⟩
    rw [e2]
    rcases h : d.get? k with _ | v
    · rfl
    · exact congrArg some (loadedEdgeValue_faithful (hP.edgeValues x y d hx k v h))

/-- attributes as they can come out of a file -/
structure FileAttrs (d : Attrs) : Prop where
  wf : d.WF
  names : ∀ k ∈ d.keys, ∃ s, k = AttrName.str s ∧ s ≠ "id"
  values : ∀ k v, d.get? k = some v → Faithful v

theorem fileAttrs_empty : FileAttrs Dict.empty := ⟨Dict.wf_empty, by simp, by simp⟩

theorem FileAttrs.update {d e : Attrs} (hd : FileAttrs d) (he : FileAttrs e) : FileAttrs (d.update e) := by
  refine ⟨hd.wf.update e, fun k hk => ?_, fun k v hv => ?_⟩
  · obtain ⟨v, hv⟩ := Dict.mem_keys_iff.1 hk
    rw [dict_get?_update d he.wf] at hv
    rcases h : e.get? k with _ | w
    · rw [h] at hv
      exact hd.names k (Dict.mem_keys_iff.2 ⟨v, hv⟩)
    · exact he.names k (Dict.mem_keys_iff.2 ⟨w, h⟩)
  · rw [dict_get?_update d he.wf] at hv
    rcases h : e.get? k with _ | w
    · rw [h] at hv
      exact hd.values k v hv
    · rw [h] at hv
      exact he.values k v (h.trans hv)

theorem jsonDict_file {d d' : Attrs} (h : jsonDict d = .ok d') :
    d'.WF ∧ (∀ k ∈ d'.keys, ∃ s, k = AttrName.str s) ∧ ∀ k v, d'.get? k = some v → Faithful v := by
  unfold jsonDict at h
  generalize d.entries = l at h
  have hD : (Dict.empty : Attrs).WF ∧ (∀ k ∈ (Dict.empty : Attrs).keys, ∃ s, k = AttrName.str s) ∧
      ∀ k v, (Dict.empty : Attrs).get? k = some v → Faithful v := ⟨Dict.wf_empty, by simp, by simp⟩
  generalize (Dict.empty : Attrs) = D at h hD
  induction l generalizing D with
  | nil =>
    obtain rfl : D = d' := by simpa [pure, Except.pure] using h
    exact hD
  | cons e l ih =>
    rw [List.foldlM_cons] at h
    rcases hk : jsonName e.1 with err | k
    · rw [hk] at h; simp [bind, Except.bind] at h
    · rw [hk] at h
      simp only [bind, Except.bind, pure, Except.pure] at h
      refine ih _ h ⟨hD.1.set _ _, ?_, ?_⟩
      · intro k' hk'
        rcases Dict.mem_keys_set.1 hk' with rfl | hk'
        · rcases he : e.1 with s | n | t <;> rw [he] at hk <;> simp [jsonName] at hk
          · exact ⟨s, hk.symm⟩
          · exact ⟨_, hk.symm⟩
        · exact hD.2.1 k' hk'
      · intro k' v hv
        rw [Dict.get?_set] at hv
        split_ifs at hv with hkk
        · obtain rfl := Option.some.inj hv
          exact jsonValue_faithful _
        · exact hD.2.2 k' v hv

theorem popId_file {d : Attrs} (hd : d.WF ∧ (∀ k ∈ d.keys, ∃ s, k = AttrName.str s) ∧ ∀ k v, d.get? k = some v → Faithful v)
    {x : PyVal} {a : Attrs} (h : popId d = .ok (x, a)) : Faithful x ∧ FileAttrs a := by
  rcases hx : d.get? idName with _ | y
  · unfold popId Dict.get at h
    rw [hx] at h
    simp [bind, Except.bind] at h
  · obtain ⟨d', h1, h2, h3⟩ := popId_ok hd.1 hx
    rw [h] at h1
    obtain ⟨rfl, rfl⟩ := Prod.mk.inj (Except.ok.inj h1)
    refine ⟨hd.2.2 _ _ hx, h2, ?_, ?_⟩
    · intro k hk
      obtain ⟨v, hv⟩ := Dict.mem_keys_iff.1 hk
      rw [h3] at hv
      split_ifs at hv with hkk
      obtain ⟨s, rfl⟩ := hd.2.1 k (Dict.mem_keys_iff.2 ⟨v, hv⟩)
      exact ⟨s, rfl, fun hs => hkk (by rw [hs]; rfl)⟩
    · intro k v hv
      rw [h3] at hv
      split_ifs at hv with hkk
      exact hd.2.2 k v hv

/-- graphs that come out of a file -/
structure FileGraph (G : NxGraph) : Prop where
  nodesWF : G.nodes.WF
  adjWF : G.adj.WF
  node : ∀ x d, G.nodes.get? x = some d → GoodLabel x ∧ FileAttrs d
  edge : ∀ x y d, G.adj.get? (x, y) = some d → x ∈ G.nodes.keys ∧ FileAttrs d
  symm : ∀ x y, G.adj.get? (x, y) = G.adj.get? (y, x)

theorem addNxNode_file {x : PyVal} (hx : Faithful x) {G G' : NxGraph} (hG : FileGraph G) (h : addNxNode x G = .ok G') :
    FileGraph G' ∧ GoodLabel x ∧ x ∈ G'.nodes.keys ∧ (∀ y ∈ G.nodes.keys, y ∈ G'.nodes.keys) := by
  have hgood : GoodLabel x := by
    rcases hx with ⟨a, rfl⟩ | ⟨l, rfl⟩ | ⟨g, rfl⟩
    · refine ⟨a, rfl, fun ha => ?_⟩
      rw [ha] at h; simp [addNxNode] at h
    · simp [addNxNode] at h
    · simp [addNxNode] at h
  rw [addNxNode_ok hgood] at h
  split_ifs at h with hc
  · obtain rfl := Except.ok.inj h
    exact ⟨hG, hgood, Dict.contains_iff.1 hc, fun _ h => h⟩
  · obtain rfl := Except.ok.inj h
    refine ⟨⟨hG.nodesWF.set _ _, hG.adjWF, ?_, ?_, hG.symm⟩, hgood, Dict.mem_keys_set.2 (.inl rfl), fun y hy => Dict.mem_keys_set.2 (.inr hy)⟩
    · intro y d hy
      simp only [Dict.get?_set] at hy
      split_ifs at hy with hyx
      · obtain rfl := Option.some.inj hy
        subst hyx
        exact ⟨hgood, fileAttrs_empty⟩
      · exact hG.node y d hy
    · intro y z d hy
      exact ⟨Dict.mem_keys_set.2 (.inr (hG.edge y z d hy).1), (hG.edge y z d hy).2⟩

theorem loadNode_file {st st' : NxGraph × List PyVal} (hst : FileGraph st.1 ∧ ∀ x ∈ st.2, Faithful x) {d : Attrs}
    (hd : d.WF ∧ (∀ k ∈ d.keys, ∃ s, k = AttrName.str s) ∧ ∀ k v, d.get? k = some v → Faithful v) (h : loadNode st d = .ok st') :
    FileGraph st'.1 ∧ ∀ x ∈ st'.2, Faithful x := by
  unfold loadNode at h
  rcases hp : popId d with e | ⟨x, a⟩
  · rw [hp] at h; simp [bind, Except.bind] at h
  obtain ⟨hx, ha⟩ := popId_file hd hp
  rw [hp] at h
  simp only [bind, Except.bind] at h
  rcases hg : addNxNode x st.1 with e | G
  · rw [hg] at h; simp at h
  obtain ⟨g1, g2, g3, -⟩ := addNxNode_file hx hst.1 hg
  rw [hg] at h
  simp only [pure, Except.pure] at h
  obtain rfl := Except.ok.inj h
  refine ⟨⟨g1.nodesWF.modifyD _ _ _, g1.adjWF, ?_, ?_, g1.symm⟩, ?_⟩
  · intro y b hy
    simp only [Dict.get?_modifyD] at hy
    split_ifs at hy with hyx
    · obtain rfl := Option.some.inj hy
      subst hyx
      refine ⟨g2, FileAttrs.update ?_ ha⟩
      obtain ⟨c, hc⟩ := Dict.mem_keys_iff.1 g3
      rw [hc]
      exact (g1.node _ _ hc).2
    · exact g1.node y b hy
  · intro y z b hy
    exact ⟨Dict.mem_keys_set.2 (.inr (g1.edge y z b hy).1), (g1.edge y z b hy).2⟩
  · intro y hy
    rcases List.mem_append.1 hy with hy | hy
    · exact hst.2 y hy
    · rw [List.mem_singleton.1 hy]; exact hx

theorem loadEdge_file {s : PyVal} (hs : Faithful s) {G G' : NxGraph} (hG : FileGraph G) {d : Attrs}
    (hd : d.WF ∧ (∀ k ∈ d.keys, ∃ s, k = AttrName.str s) ∧ ∀ k v, d.get? k = some v → Faithful v) (h : loadEdge s G d = .ok G') :
    FileGraph G' := by
  unfold loadEdge at h
  rcases hp : popId d with e | ⟨t, a⟩
  · rw [hp] at h; simp [bind, Except.bind] at h
  obtain ⟨ht, ha⟩ := popId_file hd hp
  rw [hp] at h
  simp only [bind, Except.bind] at h
  rcases hg : addNxNode s G with e | G1
  · rw [hg] at h; simp at h
  obtain ⟨g1, g2, g3, -⟩ := addNxNode_file hs hG hg
  rw [hg] at h
  simp only at h
  rcases hg' : addNxNode t G1 with e | G2
  · rw [hg'] at h; simp at h
  obtain ⟨k1, k2, k3, k4⟩ := addNxNode_file ht g1 hg'
  rw [hg'] at h
  simp only [pure, Except.pure] at h
  obtain rfl := Except.ok.inj h
  have hnew : FileAttrs (((G2.adj.get? (s, t)).getD Dict.empty).update a) := by
    refine FileAttrs.update ?_ ha
    rcases hc : G2.adj.get? (s, t) with _ | c
    · exact fileAttrs_empty
    · exact (k1.edge _ _ _ hc).2
  refine ⟨k1.nodesWF, (k1.adjWF.set _ _).set _ _, k1.node, ?_, ?_⟩
  · intro x y b hb
    simp only [Dict.get?_set] at hb
    split_ifs at hb with h1 h2
    · obtain rfl := Option.some.inj hb
      obtain ⟨rfl, rfl⟩ := Prod.mk.inj h1
      exact ⟨k3, hnew⟩
    · obtain rfl := Option.some.inj hb
      obtain ⟨rfl, rfl⟩ := Prod.mk.inj h2
      exact ⟨k4 _ g3, hnew⟩
    · exact k1.edge x y b hb
  · intro x y
    simp only [Dict.get?_set, Prod.mk.injEq, k1.symm x y]
    by_cases h1 : x = t ∧ y = s
    · rw [if_pos h1]
      by_cases h2 : y = t ∧ x = s
      · rw [if_pos h2]
      · rw [if_neg h2, if_pos ⟨h1.2, h1.1⟩]
    · rw [if_neg h1]
      by_cases h2 : x = s ∧ y = t
      · rw [if_pos h2, if_pos ⟨h2.2, h2.1⟩]
      · rw [if_neg h2, if_neg (fun h => h2 ⟨h.2, h.1⟩), if_neg (fun h => h1 ⟨h.2, h.1⟩)]

theorem mapM_out {A B : Type} {f : A → Py B} {l : List A} {l' : List B} (h : l.mapM f = .ok l') : ∀ y ∈ l', ∃ x ∈ l, f x = .ok y := by
  induction l generalizing l' with
  | nil =>
    obtain rfl : [] = l' := by simpa [pure, Except.pure] using h
    simp
  | cons x l ih =>
    rw [List.mapM_cons] at h
    rcases hx : f x with e | y
    · rw [hx] at h; simp [bind, Except.bind] at h
    · rw [hx] at h
      rcases hl : l.mapM f with e | ys
      · rw [hl] at h; simp [bind, Except.bind] at h
      · rw [hl] at h
        simp only [bind, Except.bind, pure, Except.pure] at h
        obtain rfl := Except.ok.inj h
        intro z hz
        rcases List.mem_cons.1 hz with rfl | hz
        · exact ⟨x, List.mem_cons_self, hx⟩
        · obtain ⟨x', h1, h2⟩ := ih hl z hz
          exact ⟨x', List.mem_cons_of_mem _ h1, h2⟩

theorem foldlM_preserves {A B : Type} {f : B → A → Py B} {l : List A} (I : B → Prop) (hf : ∀ a ∈ l, ∀ b b', I b → f b a = .ok b' → I b')
    {b b' : B} (hb : I b) (h : l.foldlM f b = .ok b') : I b' := by
  induction l generalizing b with
  | nil =>
    obtain rfl : b = b' := by simpa [pure, Except.pure] using h
    exact hb
  | cons a l ih =>
    rw [List.foldlM_cons] at h
    rcases hx : f b a with e | c
    · rw [hx] at h; simp [bind, Except.bind] at h
    · rw [hx] at h
      exact ih (fun a' ha' => hf a' (List.mem_cons_of_mem _ ha')) (hf a List.mem_cons_self b c hb hx) h

/-- **C91**: whatever graph has been saved, a graph that has been loaded is portable: saving and loading it again changes nothing. -/
theorem C91_loaded {G G' : NxGraph} {geojson : Bool} (h : saveAndLoad G geojson = .ok G') : G'.Valid ∧ G'.Portable := by
  unfold saveAndLoad at h
  rcases hd : toJson G geojson with e | data
  · rw [hd] at h; simp [bind, Except.bind] at h
  rw [hd] at h
  simp only [bind, Except.bind] at h
  have hdata : (∀ d ∈ data.nodes, d.WF ∧ (∀ k ∈ d.keys, ∃ s, k = AttrName.str s) ∧ ∀ k v, d.get? k = some v → Faithful v) ∧
      ∀ row ∈ data.adjacency, ∀ d ∈ row, d.WF ∧ (∀ k ∈ d.keys, ∃ s, k = AttrName.str s) ∧ ∀ k v, d.get? k = some v → Faithful v := by
    unfold toJson at hd
    dsimp only at hd
    generalize (if geojson = true then convertGeometries (adjacencyData G) else removeGeometries (adjacencyData G)) = D at hd
    rcases h1 : D.nodes.mapM jsonDict with e | ns
    · rw [h1] at hd; simp [bind, Except.bind] at hd
    rcases h2 : D.adjacency.mapM (fun row => row.mapM jsonDict) with e | rs
    · rw [h1, h2] at hd; simp [bind, Except.bind] at hd
    rw [h1, h2] at hd
    simp only [bind, Except.bind, pure, Except.pure] at hd
    obtain rfl := Except.ok.inj hd
    refine ⟨fun d hmem => ?_, fun row hrow d hmem => ?_⟩
    · obtain ⟨x, -, hx⟩ := mapM_out h1 d hmem
      exact jsonDict_file hx
    · obtain ⟨r, -, hr⟩ := mapM_out h2 row hrow
      obtain ⟨x, -, hx⟩ := mapM_out hr d hmem
      exact jsonDict_file hx
  unfold adjacencyGraph at h
  rcases hn : data.nodes.foldlM loadNode (⟨Dict.empty, Dict.empty⟩, []) with e | ⟨G1, mapping⟩
  · rw [hn] at h; simp [bind, Except.bind] at h
  rw [hn] at h
  simp only [bind, Except.bind] at h
  obtain ⟨hG1, hmap⟩ := foldlM_preserves (fun st : NxGraph × List PyVal => FileGraph st.1 ∧ ∀ x ∈ st.2, Faithful x)
    (fun d hmem st st' hst hst' => loadNode_file hst (hdata.1 d hmem) hst')
    ⟨⟨Dict.wf_empty, Dict.wf_empty, by simp, by simp, by simp⟩, by simp⟩ hn
  have hG' := foldlM_preserves FileGraph (fun row hrow G0 G0' h0 h0' => by
    rcases hs : mapping[row.2]? with _ | s
    · rw [hs] at h0'; simp at h0'
    · rw [hs] at h0'
      have hrow' : row.1 ∈ data.adjacency := by
        exact List.fst_mem_of_mem_zipIdx hrow
      exact foldlM_preserves FileGraph (fun d hmem H H' hH hH' => loadEdge_file (hmap s (List.mem_of_getElem? hs)) hH (hdata.2 _ hrow' d hmem) hH') h0 h0')
    hG1 h
  refine ⟨⟨hG'.nodesWF, hG'.adjWF, fun x d hx => (hG'.node x d hx).2.wf, fun x y d hx => (hG'.edge x y d hx).2.wf, hG'.symm,
    fun x y d hx => (hG'.edge x y d hx).1⟩, ⟨?_, ⟨fun x d hx => (hG'.node x d hx).2.names, fun x y d hx => (hG'.edge x y d hx).2.names⟩,
    fun x d hx => (hG'.node x d hx).2.values, fun x y d hx => (hG'.edge x y d hx).2.values⟩⟩
  intro x hx
  obtain ⟨d, hd⟩ := Dict.mem_keys_iff.1 hx
  exact (hG'.node x d hd).1

/-! ### What does not survive -/

theorem foldlM_each_ok {A B : Type} {f : B → A → Py B} {l : List A} {b b' : B} (h : l.foldlM f b = .ok b') : ∀ a ∈ l, ∃ c c', f c a = .ok c' := by
  induction l generalizing b with
  | nil => simp
  | cons a l ih =>
    rw [List.foldlM_cons] at h
    rcases hx : f b a with e | c
    · rw [hx] at h; simp [bind, Except.bind] at h
    · rw [hx] at h
      intro a' ha'
      rcases List.mem_cons.1 ha' with rfl | ha'
      · exact ⟨b, c, hx⟩
      · exact ih h a' ha'

/-- **C91**, where the code disagrees with the property: a graph with a label that is a tuple, as all graphs made by `Grid` have, is saved without any complaint,
but the file cannot be loaded; the same holds for labels that JSON does not know. -/
theorem C91_labels_violation {G : NxGraph} (hG : G.Valid) (hN : G.NamesOk) (hlab : ∀ x ∈ G.nodes.keys, isGeometry x = false)
    {x : PyVal} (hx : x ∈ G.nodes.keys) (hbad : (∃ l, x = .tuple l) ∨ ∃ k, x = .object k) (geojson : Bool) :
    ∃ data, toJson G geojson = .ok data ∧ ∃ e, adjacencyGraph data = .error e := by
  obtain ⟨data, h1, h2, -⟩ := toJson_ok hG hN hlab geojson
  refine ⟨data, h1, ?_⟩
  rcases h : adjacencyGraph data with e | G'
  · exact ⟨e, rfl⟩
  exfalso
  unfold adjacencyGraph at h
  rcases hn : data.nodes.foldlM loadNode (⟨Dict.empty, Dict.empty⟩, []) with e | st
  · rw [hn] at h; simp [bind, Except.bind] at h
  obtain ⟨e, he, rfl⟩ := List.mem_map.1 hx
  obtain ⟨d, hd, hsaved⟩ : ∃ d ∈ data.nodes, IsSaved (jsonValue e.1) (fun k => (e.2.get? k).bind (loadedNodeValue geojson)) d := by
    clear hn h h1 hx hbad hlab
    generalize data.nodes = ds at h2
    generalize G.nodes.entries = l at h2 he
    induction h2 with
    | nil => simp at he
    | @cons a b l ds hab _ ih =>
      rcases List.mem_cons.1 he with rfl | he
      · exact ⟨b, List.mem_cons_self, hab⟩
      · obtain ⟨d, hd, hs⟩ := ih he
        exact ⟨d, List.mem_cons_of_mem _ hd, hs⟩
  obtain ⟨c, c', hc⟩ := foldlM_each_ok hn d hd
  obtain ⟨d', hp, -, -⟩ := hsaved
  unfold loadNode at hc
  rw [hp] at hc
  rcases hbad with ⟨l, hl⟩ | ⟨k, hk⟩
  · rw [hl] at hc
    simp [bind, Except.bind, jsonValue, addNxNode] at hc
  · rw [hk] at hc
    simp [bind, Except.bind, jsonValue, addNxNode] at hc

/-- **C91**, where the code disagrees with the property: an attribute named `"id"` never comes back. -/
theorem C91_id_violation {G G' : NxGraph} {geojson : Bool} (h : saveAndLoad G geojson = .ok G') :
    (∀ x d, G'.nodes.get? x = some d → d.get? (.str "id") = none) ∧ ∀ x y d, G'.adj.get? (x, y) = some d → d.get? (.str "id") = none := by
  obtain ⟨-, hP⟩ := C91_loaded h
  exact ⟨fun x d hx => get?_id_none (hP.names.node x d hx), fun x y d hx => get?_id_none (hP.names.edge x y d hx)⟩

/-- two nodes named `"a"` and `"b"`; `"a"` has a numpy float as population, a numpy integer, a tuple, and a geometry, and the edge has a geometry -/
def jsonEx : NxGraph where
  nodes := ⟨[(.atom (.str "a"), ⟨[(.str "pop", .object 0), (.str "TOTPOP", .npInt 7), (.str "c", .tuple [.num 1, .num 2]), (.str "geometry", .geometry 3)]⟩),
    (.atom (.str "b"), ⟨[(.str "pop", .atom (.num 2)), (.str "TOTPOP", .npInt 8)]⟩)]⟩
  adj := ⟨[((.atom (.str "a"), .atom (.str "b")), ⟨[(.str "border", .geometry 4)]⟩), ((.atom (.str "b"), .atom (.str "a")), ⟨[(.str "border", .geometry 4)]⟩)]⟩

/-- what comes back -/
def jsonExLoaded : NxGraph where
  nodes := ⟨[(.atom (.str "a"), ⟨[(.str "pop", .atom .null), (.str "TOTPOP", .atom (.num 7)), (.str "c", .list [.num 1, .num 2])]⟩),
    (.atom (.str "b"), ⟨[(.str "pop", .atom (.num 2)), (.str "TOTPOP", .atom (.num 8))]⟩)]⟩
  adj := ⟨[((.atom (.str "a"), .atom (.str "b")), ⟨[(.str "border", .atom .null)]⟩), ((.atom (.str "b"), .atom (.str "a")), ⟨[(.str "border", .atom .null)]⟩)]⟩

/-- **C91**, where the code disagrees with the property: saving and loading succeed without an exception, but the population of `"a"`, a numpy float, has become
`None`. -/
theorem C91_values_violation : saveAndLoad jsonEx false = .ok jsonExLoaded := by rfl

/-- **C91**, where the code disagrees with the property: names that are numbers become strings, and a number and a string that look alike are merged. -/
theorem C91_names_violation :
    saveAndLoad ⟨⟨[(.atom (.num 0), ⟨[(.int 1, .atom (.num 5)), (.str "1", .atom (.num 6))]⟩)]⟩, Dict.empty⟩ false =
      .ok ⟨⟨[(.atom (.num 0), ⟨[(.str "1", .atom (.num 6))]⟩)]⟩, Dict.empty⟩ := by rfl

/-- a grid of one row and two columns, as `Grid` makes it: the labels are tuples -/
def jsonGrid : NxGraph where
  nodes := ⟨[(.tuple [.num 0, .num 0], ⟨[(.str "population", .atom (.num 1))]⟩), (.tuple [.num 0, .num 1], ⟨[(.str "population", .atom (.num 1))]⟩)]⟩
  adj := ⟨[((.tuple [.num 0, .num 0], .tuple [.num 0, .num 1]), ⟨[(.str "shared_perim", .atom (.num 1))]⟩),
    ((.tuple [.num 0, .num 1], .tuple [.num 0, .num 0]), ⟨[(.str "shared_perim", .atom (.num 1))]⟩)]⟩

theorem valid_two {x y : PyVal} (hxy : x ≠ y) {a b e : Attrs} (ha : a.WF) (hb : b.WF) (he : e.WF) :
    (⟨⟨[(x, a), (y, b)]⟩, ⟨[((x, y), e), ((y, x), e)]⟩⟩ : NxGraph).Valid := by
  have hyx : y ≠ x := fun h => hxy h.symm
  refine ⟨by simp [Dict.WF, Dict.keys, hxy], by simp [Dict.WF, Dict.keys, hxy], ?_, ?_, ?_, ?_⟩
  · intro z d hz
    have := Dict.mem_entries_of_get? hz
    simp only [List.mem_cons, Prod.mk.injEq, List.not_mem_nil, or_false] at this
    rcases this with ⟨-, rfl⟩ | ⟨-, rfl⟩ <;> assumption
  · intro z w d hz
    have := Dict.mem_entries_of_get? hz
    simp only [List.mem_cons, Prod.mk.injEq, List.not_mem_nil, or_false] at this
    rcases this with ⟨-, rfl⟩ | ⟨-, rfl⟩ <;> assumption
  · intro z w
    have key : ∀ z w, (⟨[((x, y), e), ((y, x), e)]⟩ : Dict (PyVal × PyVal) Attrs).get? (z, w) =
        if (x = z ∧ y = w) ∨ (y = z ∧ x = w) then some e else none := by
      intro z w
      unfold Dict.get?
      by_cases h1 : x = z ∧ y = w
      · simp [List.find?_cons, h1]
      · by_cases h2 : y = z ∧ x = w
        · obtain ⟨rfl, rfl⟩ := h2
          simp [List.find?_cons, hxy]
        · simp [List.find?_cons, h1, h2]
    show (⟨[((x, y), e), ((y, x), e)]⟩ : Dict (PyVal × PyVal) Attrs).get? (z, w) = (⟨[((x, y), e), ((y, x), e)]⟩ : Dict (PyVal × PyVal) Attrs).get? (w, z)
    rw [key, key]
    refine if_congr ?_ rfl rfl
    tauto
  · intro z w d hz
    have := Dict.mem_entries_of_get? hz
    simp only [List.mem_cons, Prod.mk.injEq, List.not_mem_nil, or_false] at this
    rcases this with ⟨⟨rfl, -⟩, -⟩ | ⟨⟨rfl, -⟩, -⟩ <;> simp [Dict.keys]

theorem names_two {x y : PyVal} {a b e : Attrs} (h : ∀ k ∈ a.keys ++ b.keys ++ e.keys, ∃ s, k = AttrName.str s ∧ s ≠ "id") :
    (⟨⟨[(x, a), (y, b)]⟩, ⟨[((x, y), e), ((y, x), e)]⟩⟩ : NxGraph).NamesOk := by
  refine ⟨?_, ?_⟩
  · intro z d hz
    have := Dict.mem_entries_of_get? hz
    simp only [List.mem_cons, Prod.mk.injEq, List.not_mem_nil, or_false] at this
    rcases this with ⟨-, rfl⟩ | ⟨-, rfl⟩ <;> exact fun k hk => h k (by simp [hk])
  · intro z w d hz
    have := Dict.mem_entries_of_get? hz
    simp only [List.mem_cons, Prod.mk.injEq, List.not_mem_nil, or_false] at this
    rcases this with ⟨-, rfl⟩ | ⟨-, rfl⟩ <;> exact fun k hk => h k (by simp [hk])

theorem jsonEx_valid : jsonEx.Valid := valid_two (by decide) (by unfold Dict.WF; decide) (by unfold Dict.WF; decide) (by unfold Dict.WF; decide)

theorem jsonEx_names : jsonEx.NamesOk := names_two (by
  intro k hk
  simp [Dict.keys] at hk
  rcases hk with rfl | rfl | rfl | rfl | rfl | rfl | rfl <;> exact ⟨_, rfl, by decide⟩)

theorem jsonGrid_valid : jsonGrid.Valid := valid_two (by decide) (by unfold Dict.WF; decide) (by unfold Dict.WF; decide) (by unfold Dict.WF; decide)

theorem jsonGrid_names : jsonGrid.NamesOk := names_two (by
  intro k hk
  simp [Dict.keys] at hk
  rcases hk with rfl | rfl <;> exact ⟨_, rfl, by decide⟩)

/-- the hypotheses of `C91_round_trip_partial` hold for a graph with values of every kind -/
example : ∃ G', saveAndLoad jsonEx true = .ok G' ∧ G'.nodes.keys = jsonEx.nodes.keys :=
  let ⟨G', h1, h2, _⟩ := C91_round_trip_partial jsonEx_valid jsonEx_names (by
    intro x hx
    simp [jsonEx, Dict.keys] at hx
    rcases hx with rfl | rfl <;> exact ⟨_, rfl, by simp⟩) true
  ⟨G', h1, h2⟩

/-- a graph that has been loaded satisfies the hypotheses of `C91_portable` -/
example : jsonExLoaded.Valid ∧ jsonExLoaded.Portable := C91_loaded C91_values_violation

example : ∃ G', saveAndLoad jsonExLoaded false = .ok G' ∧ G'.nodes.keys = jsonExLoaded.nodes.keys :=
  let h := C91_loaded C91_values_violation
  let ⟨G', h1, h2, _⟩ := C91_portable h.1 h.2 false
  ⟨G', h1, h2⟩

/-- the hypotheses of `C91_labels_violation` hold for a grid; networkx raises `TypeError` -/
example : ∃ data, toJson jsonGrid false = .ok data ∧ ∃ e, adjacencyGraph data = .error e :=
  C91_labels_violation jsonGrid_valid jsonGrid_names (by
    intro x hx
    simp [jsonGrid, Dict.keys] at hx
    rcases hx with rfl | rfl <;> rfl) (x := .tuple [.num 0, .num 0]) (by simp [jsonGrid, Dict.keys]) (.inl ⟨_, rfl⟩) false

example : saveAndLoad jsonGrid false = .error .typeError := by rfl

/-- the attribute `"id"` of a node is replaced by its label and not restored -/
example : saveAndLoad ⟨⟨[(.atom (.num 0), ⟨[(.str "id", .atom (.str "precinct 12"))]⟩)]⟩, Dict.empty⟩ false =
    .ok ⟨⟨[(.atom (.num 0), Dict.empty)]⟩, Dict.empty⟩ := by rfl

end GC

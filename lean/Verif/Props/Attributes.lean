import Verif.Model.Attributes
import Verif.Props.ClassState

/-!
# Node attributes from tables (C83, C84)
-/

set_option linter.unusedSectionVars false
set_option autoImplicit false

namespace GC

variable {V W : Type} [LinearOrder V]

/-! ### Dictionaries built by loops -/

theorem foldl_set_find {ι K W : Type} [DecidableEq K] (k : ι → K) (f : ι → W) (l : List ι) (d : Dict K W) (y : K) :
    (l.foldl (fun d x => d.set (k x) (f x)) d).get? y = ((l.reverse.find? (fun x => k x = y)).map f).or (d.get? y) := by
  induction l generalizing d with
  | nil => rfl
  | cons x l ih =>
    rw [List.foldl_cons, ih, List.reverse_cons, List.find?_append, Dict.get?_set]
    rcases l.reverse.find? (fun x => k x = y) with _ | z
    · by_cases h : k x = y
      · simp [h]
      · have h' : ¬ y = k x := fun e => h e.symm
        simp [h, h']
    · simp

theorem foldl_set_wf {ι K W : Type} [DecidableEq K] (k : ι → K) (f : ι → W) (l : List ι) (d : Dict K W) (hd : d.WF) :
    (l.foldl (fun d x => d.set (k x) (f x)) d).WF := by
  induction l generalizing d with
  | nil => exact hd
  | cons x l ih => exact ih _ (hd.set _ _)

/-- a comprehension over the entries of a dictionary whose values may raise `KeyError` -/
theorem foldlM_set {K W U : Type} [DecidableEq K] (g : W → Py U) (l : List (K × W)) (hl : (l.map (·.1)).Nodup) (d : Dict K U) (hd : d.WF) :
    (∃ e ∈ l, ∃ err, g e.2 = .error err ∧ l.foldlM (fun d e => do let x ← g e.2; return d.set e.1 x) d = .error err) ∨
    ((∀ e ∈ l, ∃ x, g e.2 = .ok x) ∧ ∃ d', l.foldlM (fun d e => do let x ← g e.2; return d.set e.1 x) d = .ok d' ∧ d'.WF ∧
      (∀ e ∈ l, ∃ x, g e.2 = .ok x ∧ d'.get? e.1 = some x) ∧ (∀ k, k ∉ l.map (·.1) → d'.get? k = d.get? k)) := by
  induction l generalizing d with
  | nil => exact .inr ⟨by simp, d, rfl, hd, by simp, by simp⟩
  | cons e l ih =>
    rw [List.map_cons, List.nodup_cons] at hl
    rcases h : g e.2 with err | x
    · refine .inl ⟨e, List.mem_cons_self, err, h, ?_⟩
      rw [List.foldlM_cons, h]; rfl
    · have hs : (e :: l).foldlM (fun d e => do let x ← g e.2; return d.set e.1 x) d =
          l.foldlM (fun d e => do let x ← g e.2; return d.set e.1 x) (d.set e.1 x) := by
        rw [List.foldlM_cons, h]; rfl
      rcases ih hl.2 (d.set e.1 x) (hd.set _ _) with ⟨e', he', err, h1, h2⟩ | ⟨h1, d', h2, h3, h4, h5⟩
      · exact .inl ⟨e', List.mem_cons_of_mem _ he', err, h1, hs.trans h2⟩
      · refine .inr ⟨?_, d', hs.trans h2, h3, ?_, ?_⟩
        · intro e' he'
          rcases List.mem_cons.1 he' with rfl | he'
          · exact ⟨x, h⟩
          · exact h1 e' he'
        · intro e' he'
          rcases List.mem_cons.1 he' with rfl | he'
          · exact ⟨x, h, by rw [h5 _ hl.1, Dict.get?_set_self]⟩
          · exact h4 e' he'
        · intro k hk
          rw [List.map_cons, List.mem_cons, not_or] at hk
          rw [h5 k hk.2, Dict.get?_set_ne _ _ hk.1]

/-- `set_node_attributes` -/
theorem setNodeAttributes_get? (nodes : Finset V) (values : Dict V (Dict String W)) (hv : values.WF) (hw : ∀ v d, values.get? v = some d → d.WF)
    (attrs : V → Dict String W) (v : V) (c : String) :
    (setNodeAttributes nodes values attrs v).get? c =
      if v ∈ nodes then (((values.get? v).bind (fun d => d.get? c)).or ((attrs v).get? c)) else (attrs v).get? c := by
  unfold setNodeAttributes
  obtain ⟨l⟩ := values
  have hw' : ∀ e ∈ l, e.2.WF := fun e he => hw e.1 e.2 (Dict.get?_of_mem_entries hv he)
  clear hw
  have hv' : (l.map (·.1)).Nodup := hv
  clear hv
  show (l.foldl _ attrs v).get? c = _
  induction l generalizing attrs with
  | nil => simp [Dict.get?]
  | cons e l ih =>
    rw [List.map_cons, List.nodup_cons] at hv'
    rw [List.foldl_cons, ih _ (fun e' he' => hw' e' (List.mem_cons_of_mem _ he')) hv'.2]
    by_cases hn : v ∈ nodes
    · rw [if_pos hn, if_pos hn]
      by_cases he : e.1 = v
      · subst he
        have h0 : (⟨l⟩ : Dict V (Dict String W)).get? e.1 = none := Dict.get?_eq_none_iff.2 hv'.1
        rw [h0, if_pos hn, Function.update_self, Dict.get?_update (hw' e List.mem_cons_self)]
        simp [Dict.get?]
      · have he' : ¬ v = e.1 := fun h => he h.symm
        have h1 : (⟨e :: l⟩ : Dict V (Dict String W)).get? v = (⟨l⟩ : Dict V (Dict String W)).get? v := by simp [Dict.get?, he]
        rw [h1]
        split_ifs
        · rw [Function.update_of_ne he']
        · rfl
    · rw [if_neg hn, if_neg hn]
      split_ifs with h
      · rw [Function.update_of_ne (by rintro rfl; exact hn h)]
      · rfl

/-! ### C83: `Graph.join` -/

/-- the label by which a row is matched: its index label, or its cell in the column `right` -/
def rowKey (right : Option String) (r : V × (String → V)) : V := match right with
  | none => r.1
  | some c => r.2 c

/-- the last row with the given label -/
def lastRow (df : DataFrame V V) (right : Option String) (k : V) : Option (String → V) :=
  (df.rows.reverse.find? (fun r => rowKey right r = k)).map (·.2)

/-- the label by which a node is matched: the node itself, or its attribute `left` -/
def nodeKey (attrs : V → Dict String V) (left : Option String) (v : V) : Option V := match left with
  | none => some v
  | some a => (attrs v).get? a

/-- the columns that are added: those asked for, or all but the one used for matching -/
def joinCols (df : DataFrame V V) (columns : Option (List String)) (right : Option String) : List String :=
  columns.getD (df.columns.filter (fun c => right ≠ some c))

theorem idsToIndex_spec (nodes : Finset V) (attrs : V → Dict String V) (left : Option String) :
    (idsToIndex nodes attrs left).WF ∧ ∀ v, (idsToIndex nodes attrs left).get? v = if v ∈ nodes then nodeKey attrs left v else none := by
  have hf : idsToIndex nodes attrs left = (iter nodes).foldl (fun d v => match nodeKey attrs left v with
      | some x => d.set v x
      | none => d) Dict.empty := by
    unfold idsToIndex
    congr 1
    funext d v
    unfold nodeKey
    rcases left with _ | a <;> rfl
  have key : ∀ (l : List V) (d : Dict V V), d.WF →
      (l.foldl (fun d v => match nodeKey attrs left v with
        | some x => d.set v x
        | none => d) d).WF ∧
      ∀ v, (l.foldl (fun d v => match nodeKey attrs left v with
        | some x => d.set v x
        | none => d) d).get? v = if v ∈ l then (nodeKey attrs left v).or (d.get? v) else d.get? v := by
    intro l
    induction l with
    | nil => exact fun d hd => ⟨hd, fun v => by simp⟩
    | cons w l ih =>
      intro d hd
      rw [List.foldl_cons]
      rcases hw : nodeKey attrs left w with _ | x
      · refine ⟨(ih d hd).1, fun v => ?_⟩
        rw [(ih d hd).2]
        by_cases hv : v = w
        · subst hv; simp [hw]
        · simp [hv]
      · refine ⟨(ih _ (hd.set _ _)).1, fun v => ?_⟩
        rw [(ih _ (hd.set _ _)).2]
        by_cases hv : v = w
        · subst hv; simp [hw]
        · simp [hv, Dict.get?_set_ne _ _ hv]
  rw [hf]
  refine ⟨(key _ _ Dict.wf_empty).1, fun v => ?_⟩
  rw [(key _ _ Dict.wf_empty).2]
  simp only [mem_iter, Dict.get?_empty, Option.or_none]

/-- the table after `set_index` and the choice of columns -/
theorem join_table (df : DataFrame V V) (columns : Option (List String)) (right : Option String) :
    let r := joinTable df columns right
    let fits := (∀ c, right = some c → c ∈ df.columns) ∧ ∀ c ∈ joinCols df columns right, c ∈ df.columns ∧ right ≠ some c
    (¬ fits → r = .error .keyError) ∧
    (fits → r = .ok ⟨joinCols df columns right, df.rows.map (fun r => (rowKey right r, r.2))⟩) := by
  intro r fits
  have hsel : ∀ df' : DataFrame V V, (match columns with
        | some cols => df'.select cols
        | none => .ok df') = if ∀ c ∈ columns.getD df'.columns, c ∈ df'.columns then .ok ⟨columns.getD df'.columns, df'.rows⟩ else .error .keyError := by
    intro df'
    rcases columns with _ | cols
    · exact (if_pos (fun c hc => hc)).symm
    · simp only [DataFrame.select, List.all_eq_true, decide_eq_true_eq, Option.getD_some]
  rcases right with _ | c
  · have hr : r = if ∀ c ∈ columns.getD df.columns, c ∈ df.columns then .ok ⟨columns.getD df.columns, df.rows⟩ else .error .keyError := hsel df
    have hcols : joinCols df columns none = columns.getD df.columns := by
      unfold joinCols
      congr 1
      exact List.filter_eq_self.2 (fun _ _ => rfl)
    have hrow : df.rows.map (fun r => (rowKey none r, r.2)) = df.rows := by
      conv_rhs => rw [← List.map_id df.rows]
      rfl
    rw [hr, hrow]
    have hiff : fits ↔ ∀ c ∈ columns.getD df.columns, c ∈ df.columns := by
      simp only [fits, hcols]
      simp
    rw [hiff, hcols]
    exact ⟨fun h => if_neg h, fun h => if_pos h⟩
  · by_cases hc : c ∈ df.columns
    · have hr : r = if ∀ c' ∈ columns.getD (df.columns.filter (· ≠ c)), c' ∈ df.columns.filter (· ≠ c) then
          .ok ⟨columns.getD (df.columns.filter (· ≠ c)), df.rows.map (fun r => (r.2 c, r.2))⟩ else .error .keyError := by
        simp only [r, joinTable, DataFrame.setIndex, if_pos hc]
        exact hsel _
      have hcols : joinCols df columns (some c) = columns.getD (df.columns.filter (· ≠ c)) := by
        unfold joinCols
        congr 1
        apply List.filter_congr
        intro x _
        simp [eq_comm]
      have hiff : fits ↔ ∀ c' ∈ columns.getD (df.columns.filter (· ≠ c)), c' ∈ df.columns.filter (· ≠ c) := by
        simp only [fits, hcols, List.mem_filter]
        constructor
        · rintro ⟨-, h⟩ c' hc'
          exact ⟨(h c' hc').1, by have := (h c' hc').2; simp only [decide_eq_true_eq]; rintro rfl; exact this rfl⟩
        · intro h
          refine ⟨by rintro x hx; cases hx; exact hc, fun c' hc' => ⟨(h c' hc').1, by have := (h c' hc').2; simp only [decide_eq_true_eq] at this; intro e; cases e; exact this rfl⟩⟩
      rw [hr, hiff, hcols]
      exact ⟨fun h => if_neg h, fun h => if_pos h⟩
    · have hr : r = .error .keyError := by
        simp only [r, joinTable, DataFrame.setIndex, if_neg hc]
        rfl
      exact ⟨fun _ => hr, fun h => absurd (h.1 c rfl) hc⟩

/-- `to_dict()` of the table -/
theorem toDict_spec (df : DataFrame V V) :
    df.toDict.WF ∧ (∀ c, df.toDict.get? c = if c ∈ df.columns then some (df.column c) else none) ∧
    ∀ c k, (df.column c).get? k = (lastRow df none k).map (fun r => r c) := by
  refine ⟨foldl_set_wf (fun c => c) df.column _ _ Dict.wf_empty, fun c => ?_, fun c k => ?_⟩
  · unfold DataFrame.toDict
    rw [foldl_set_find (fun c => c) df.column]
    split_ifs with h
    · have : df.columns.reverse.find? (fun x => x = c) = some c := by
        rcases hf : df.columns.reverse.find? (fun x => x = c) with _ | y
        · rw [List.find?_eq_none] at hf
          exact absurd (hf c (List.mem_reverse.2 h)) (by simp)
        · have := List.find?_some hf
          simp at this
          rw [this]
      rw [this]; rfl
    · have : df.columns.reverse.find? (fun x => x = c) = none := by
        rw [List.find?_eq_none]
        intro x hx
        simp
        rintro rfl
        exact h (List.mem_reverse.1 hx)
      rw [this]; rfl
  · unfold DataFrame.column
    rw [foldl_set_find (fun r : V × (String → V) => r.1) (fun r => r.2 c), Dict.get?_empty, Option.or_none]
    unfold lastRow
    rw [Option.map_map]
    rfl

theorem lastRow_map (df : DataFrame V V) (cols : List String) (right : Option String) (k : V) :
    lastRow ⟨cols, df.rows.map (fun r => (rowKey right r, r.2))⟩ none k = lastRow df right k := by
  unfold lastRow
  simp only [← List.map_reverse, List.find?_map, Option.map_map]
  rfl

/-- the attributes that a node gets from the row with a given label -/
theorem joinRow_spec (df : DataFrame V V) (k : V) :
    (df.columns ≠ [] → lastRow df none k = none → joinRow df.toDict k = .error .keyError) ∧
    ((df.columns = [] ∨ lastRow df none k ≠ none) → ∃ d, joinRow df.toDict k = .ok d ∧ d.WF ∧
      ∀ c, d.get? c = if c ∈ df.columns then (lastRow df none k).map (fun r => r c) else none) := by
  obtain ⟨h1, h2, h3⟩ := toDict_spec df
  have hmem : ∀ e ∈ df.toDict.entries, e.1 ∈ df.columns ∧ e.2 = df.column e.1 := by
    rintro ⟨c, x⟩ he
    have := Dict.get?_of_mem_entries h1 he
    rw [h2] at this
    split_ifs at this with hc
    cases this
    exact ⟨hc, rfl⟩
  have hkeys : ∀ c, c ∈ df.toDict.entries.map (·.1) ↔ c ∈ df.columns := by
    intro c
    show c ∈ df.toDict.keys ↔ _
    rw [← Dict.get?_isSome_iff, h2]
    split_ifs with h <;> simp [h]
  rcases foldlM_set (fun x : Dict V V => x.get k) df.toDict.entries h1 Dict.empty Dict.wf_empty with ⟨e, he, err, g1, g2⟩ | ⟨g1, d, g2, g3, g4, g5⟩
  · rw [Dict.get_eq_error_iff] at g1
    obtain ⟨g1, rfl⟩ := g1
    refine ⟨fun _ _ => g2, ?_⟩
    obtain ⟨m1, m2⟩ := hmem e he
    rw [m2, h3, Option.map_eq_none_iff] at g1
    rintro (h | h)
    · rw [h] at m1; simp at m1
    · exact absurd g1 h
  · refine ⟨fun hne hn => ?_, fun _ => ⟨d, g2, g3, fun c => ?_⟩⟩
    · obtain ⟨c, hc⟩ := List.exists_mem_of_ne_nil _ hne
      obtain ⟨e, he, rfl⟩ := List.mem_map.1 ((hkeys c).2 hc)
      obtain ⟨x, hx⟩ := g1 e he
      rw [Dict.get_eq_ok_iff, (hmem e he).2, h3, hn] at hx
      cases hx
    · split_ifs with hc
      · obtain ⟨e, he, rfl⟩ := List.mem_map.1 ((hkeys c).2 hc)
        obtain ⟨x, hx, hd⟩ := g4 e he
        rw [Dict.get_eq_ok_iff, (hmem e he).2, h3] at hx
        rw [hd, hx]
      · rw [g5 c (fun h => hc ((hkeys c).1 h))]; rfl

/-- **C83** `Graph.join(dataframe, columns, left_index, right_index)`.

* `KeyError` when the table lacks the column used for matching or a requested column, or when the column used for matching is itself requested;
* `KeyError` when a node that has a label has no row (and some column is to be added);
* otherwise every node with a label has the cells of the last row with this label as attributes, all other attributes are as before.

When it raises, no attribute has changed. -/
theorem C83_join (nodes : Finset V) (df : DataFrame V V) (columns : Option (List String)) (left right : Option String) (attrs : V → Dict String V) :
    let cols := joinCols df columns right
    let fits := (∀ c, right = some c → c ∈ df.columns) ∧ ∀ c ∈ cols, c ∈ df.columns ∧ right ≠ some c
    let found := cols = [] ∨ ∀ v ∈ nodes, ∀ k, nodeKey attrs left v = some k → lastRow df right k ≠ none
    (¬ (fits ∧ found) → joinData nodes df columns left right attrs = (.error .keyError, attrs)) ∧
    (fits ∧ found → ∃ attrs', joinData nodes df columns left right attrs = (.ok (), attrs') ∧
      ∀ v c, (attrs' v).get? c =
        if v ∈ nodes ∧ c ∈ cols then (((nodeKey attrs left v).bind (lastRow df right)).map (fun r => r c)).or ((attrs v).get? c)
        else (attrs v).get? c) := by
  intro cols fits found
  obtain ⟨t1, t2⟩ := join_table df columns right
  obtain ⟨i1, i2⟩ := idsToIndex_spec nodes attrs left
  have hrun : joinData nodes df columns left right attrs =
      match joinTable df columns right with
      | .error e => (.error e, attrs)
      | .ok t => match joinRows t.toDict (idsToIndex nodes attrs left) with
        | .error e => (.error e, attrs)
        | .ok rows => (.ok (), setNodeAttributes nodes rows attrs) := by
    unfold joinData
    show M.bind _ _ _ = _
    unfold M.bind M.lift
    rcases joinTable df columns right with e | t
    · rfl
    · show M.bind _ _ _ = _
      unfold M.bind M.read
      show M.bind _ _ _ = _
      unfold M.bind
      dsimp only
      rcases joinRows t.toDict (idsToIndex nodes attrs left) with e | rows <;> rfl
  by_cases hfit : fits
  · rw [t2 hfit] at hrun
    dsimp only at hrun
    set T : DataFrame V V := ⟨cols, df.rows.map (fun r => (rowKey right r, r.2))⟩ with hT
    have hlast : ∀ k, lastRow T none k = lastRow df right k := lastRow_map df cols right
    have hrows := foldlM_set (fun k => joinRow T.toDict k) (idsToIndex nodes attrs left).entries i1 Dict.empty Dict.wf_empty
    have hent : ∀ v k, (v, k) ∈ (idsToIndex nodes attrs left).entries ↔ v ∈ nodes ∧ nodeKey attrs left v = some k := by
      intro v k
      rw [Dict.mem_entries_iff i1, i2]
      split_ifs with h <;> simp [h]
    by_cases hfound : found
    · have hok : ∀ v k, v ∈ nodes → nodeKey attrs left v = some k → ∃ d, joinRow T.toDict k = .ok d ∧ d.WF ∧
          ∀ c, d.get? c = if c ∈ cols then (lastRow df right k).map (fun r => r c) else none := by
        intro v k hv hk
        obtain ⟨d, d1, d2, d3⟩ := (joinRow_spec T k).2 (hfound.imp id (fun h => by rw [hlast]; exact h v hv k hk))
        exact ⟨d, d1, d2, fun c => by rw [d3, hlast]⟩
      rcases hrows with ⟨⟨v, k⟩, he, err, g1, g2⟩ | ⟨g1, d, g2, g3, g4, g5⟩
      · obtain ⟨hv, hk⟩ := (hent v k).1 he
        obtain ⟨d, d1, -⟩ := hok v k hv hk
        rw [d1] at g1; cases g1
      · refine ⟨fun h => absurd ⟨hfit, hfound⟩ h, fun _ => ?_⟩
        have g2' : joinRows T.toDict (idsToIndex nodes attrs left) = .ok d := g2
        rw [g2'] at hrun
        refine ⟨_, hrun, fun v c => ?_⟩
        have hd : ∀ v, (∃ k, v ∈ nodes ∧ nodeKey attrs left v = some k ∧ ∃ x, joinRow T.toDict k = .ok x ∧ d.get? v = some x) ∨
            ((v ∉ nodes ∨ nodeKey attrs left v = none) ∧ d.get? v = none) := by
          intro v
          by_cases hv : v ∈ nodes
          · rcases hk : nodeKey attrs left v with _ | k
            · refine .inr ⟨.inr rfl, ?_⟩
              rw [g5 v]
              · rfl
              · intro h
                obtain ⟨⟨v', k⟩, he, rfl⟩ := List.mem_map.1 h
                rw [hent] at he
                rw [he.2] at hk; cases hk
            · obtain ⟨x, hx, hx'⟩ := g4 (v, k) ((hent v k).2 ⟨hv, hk⟩)
              exact .inl ⟨k, hv, rfl, x, hx, hx'⟩
          · refine .inr ⟨.inl hv, ?_⟩
            rw [g5 v]
            · rfl
            · intro h
              obtain ⟨⟨v', k⟩, he, rfl⟩ := List.mem_map.1 h
              rw [hent] at he
              exact hv he.1
        rw [setNodeAttributes_get? nodes d g3]
        · by_cases hv : v ∈ nodes
          · rw [if_pos hv]
            rcases hd v with ⟨k, -, hk, x, hx, hx'⟩ | ⟨h1, h2⟩
            · obtain ⟨d', d1, -, d3⟩ := hok v k hv hk
              rw [hx] at d1; cases d1
              rw [hx', hk]
              simp only [Option.bind_some, d3]
              by_cases hc : c ∈ cols
              · rw [if_pos hc, if_pos ⟨hv, hc⟩]
              · rw [if_neg hc, if_neg (fun h => hc h.2)]; rfl
            · rw [h2, h1.resolve_left (fun h => h hv)]
              simp
          · rw [if_neg hv, if_neg (fun h => hv h.1)]
        · intro w x hx
          rcases hd w with ⟨k, hw, hk, y, hy, hy'⟩ | ⟨-, h2⟩
          · obtain ⟨d', d1, d2, -⟩ := hok w k hw hk
            rw [hy] at d1; cases d1
            rw [hy'] at hx; cases hx
            exact d2
          · rw [h2] at hx; cases hx
    · refine ⟨fun _ => ?_, fun h => absurd h.2 hfound⟩
      simp only [found, not_or] at hfound
      push Not at hfound
      obtain ⟨hne, v, hv, k, hk, hno⟩ := hfound
      have hbad := (joinRow_spec T k).1 hne (by rw [hlast]; exact hno)
      rcases hrows with ⟨⟨v', k'⟩, he, err, g1, g2⟩ | ⟨g1, d, g2, g3, g4, g5⟩
      · have g2' : joinRows T.toDict (idsToIndex nodes attrs left) = .error err := g2
        have herr : err = .keyError := by
          by_cases hl : lastRow T none k' = none
          · have g1' : joinRow T.toDict k' = .error err := g1
            rw [(joinRow_spec T k').1 hne hl] at g1'
            cases g1'; rfl
          · obtain ⟨x, hx, -⟩ := (joinRow_spec T k').2 (.inr hl)
            have g1' : joinRow T.toDict k' = .error err := g1
            rw [hx] at g1'; cases g1'
        rw [g2', herr] at hrun
        exact hrun
      · obtain ⟨x, hx⟩ := g1 (v, k) ((hent v k).2 ⟨hv, hk⟩)
        have hx' : joinRow T.toDict k = .ok x := hx
        rw [hbad] at hx'; cases hx'
  · refine ⟨fun _ => ?_, fun h => absurd h.1 hfit⟩
    rw [t1 hfit] at hrun
    exact hrun

/-! ### C84: `Graph.add_data` -/

theorem find?_reverse_of_nodup {ι K : Type} [DecidableEq K] (k : ι → K) (l : List ι) (hl : (l.map k).Nodup) (y : K) :
    l.reverse.find? (fun x => k x = y) = l.find? (fun x => k x = y) := by
  rcases h : l.find? (fun x => k x = y) with _ | x
  · rw [List.find?_eq_none] at h ⊢
    exact fun x hx => h x (List.mem_reverse.1 hx)
  · have h1 := List.find?_some h
    have h2 := List.mem_of_find?_eq_some h
    rcases h' : l.reverse.find? (fun x => k x = y) with _ | z
    · rw [List.find?_eq_none] at h'
      exact absurd h1 (h' x (List.mem_reverse.2 h2))
    · have h3 := List.find?_some h'
      have h4 := List.mem_reverse.1 (List.mem_of_find?_eq_some h')
      simp only [decide_eq_true_eq] at h1 h3
      rw [List.inj_on_of_nodup_map hl h4 h2 (h3.trans h1.symm)]

theorem rowDict_spec (df : DataFrame V W) (r : String → W) :
    (df.rowDict r).WF ∧ ∀ c, (df.rowDict r).get? c = if c ∈ df.columns then some (r c) else none := by
  refine ⟨foldl_set_wf (fun c => c) r _ _ Dict.wf_empty, fun c => ?_⟩
  unfold DataFrame.rowDict
  rw [foldl_set_find (fun c => c) r, Dict.get?_empty, Option.or_none]
  split_ifs with h
  · rcases hf : df.columns.reverse.find? (fun x => x = c) with _ | y
    · rw [List.find?_eq_none] at hf
      exact absurd (hf c (List.mem_reverse.2 h)) (by simp)
    · have := List.find?_some hf
      simp only [decide_eq_true_eq] at this
      rw [this]; rfl
  · rw [Option.map_eq_none_iff, List.find?_eq_none]
    intro x hx
    simp only [decide_eq_true_eq]
    rintro rfl
    exact h (List.mem_reverse.1 hx)

/-- the effect of `Graph.add_data(df, columns)` with requested columns `cols` -/
theorem addData_spec (nodes : Finset V) (df : DataFrame V W) (columns : Option (List String)) (attrs : V → Dict String W) :
    let fits := ∀ c ∈ columns.getD df.columns, c ∈ df.columns
    (¬ fits → addData nodes df columns attrs = (.error .keyError, attrs)) ∧
    (fits → ¬ (df.rows.map (·.1)).Nodup → addData nodes df columns attrs = (.error .valueError, attrs)) ∧
    (fits → (df.rows.map (·.1)).Nodup → ∃ attrs', addData nodes df columns attrs = (.ok (), attrs') ∧
      (∀ r ∈ df.rows, r.1 ∈ nodes → ∀ c ∈ df.columns, (attrs' r.1).get? c = some (r.2 c)) ∧
      ∀ v c, v ∉ nodes ∨ v ∉ df.rows.map (·.1) ∨ c ∉ df.columns → (attrs' v).get? c = (attrs v).get? c) := by
  intro fits
  have hsel : df.select (columns.getD df.columns) = if fits then .ok ⟨columns.getD df.columns, df.rows⟩ else .error .keyError := by
    simp only [DataFrame.select, List.all_eq_true, decide_eq_true_eq, fits]
  have hrun : addData nodes df columns attrs = match df.select (columns.getD df.columns) with
      | .error e => (.error e, attrs)
      | .ok _ => match df.toDictIndex with
        | .error e => (.error e, attrs)
        | .ok d => (.ok (), setNodeAttributes nodes d attrs) := by
    unfold addData
    show M.bind _ _ _ = _
    unfold M.bind M.lift
    rcases df.select (columns.getD df.columns) with e | t
    · rfl
    · show M.bind _ _ _ = _
      unfold M.bind
      dsimp only
      rcases df.toDictIndex with e | d <;> rfl
  rw [hsel] at hrun
  refine ⟨fun h => ?_, fun h hn => ?_, fun h hn => ?_⟩
  · rw [if_neg h] at hrun; exact hrun
  · rw [if_pos h] at hrun
    simp only [DataFrame.toDictIndex, if_neg hn] at hrun
    exact hrun
  · rw [if_pos h] at hrun
    simp only [DataFrame.toDictIndex, if_pos hn] at hrun
    refine ⟨_, hrun, ?_⟩
    set d := df.rows.foldl (fun d r => d.set r.1 (df.rowDict r.2)) Dict.empty with hd
    have hget : ∀ v, d.get? v = (df.rows.find? (fun r => r.1 = v)).map (fun r => df.rowDict r.2) := by
      intro v
      rw [hd, foldl_set_find (fun r : V × (String → W) => r.1) (fun r => df.rowDict r.2), Dict.get?_empty, Option.or_none,
        find?_reverse_of_nodup _ _ hn]
    have hwf : d.WF := foldl_set_wf (fun r : V × (String → W) => r.1) (fun r => df.rowDict r.2) _ _ Dict.wf_empty
    have hw : ∀ v x, d.get? v = some x → x.WF := by
      intro v x hx
      rw [hget, Option.map_eq_some_iff] at hx
      obtain ⟨r, -, rfl⟩ := hx
      exact (rowDict_spec df r.2).1
    refine ⟨fun r hr hv c hc => ?_, fun v c hvc => ?_⟩
    · have hf : df.rows.find? (fun r' => r'.1 = r.1) = some r := by
        rcases hf : df.rows.find? (fun r' => r'.1 = r.1) with _ | z
        · rw [List.find?_eq_none] at hf
          exact absurd (hf r hr) (by simp)
        · have h1 := List.find?_some hf
          simp only [decide_eq_true_eq] at h1
          rw [hf, List.inj_on_of_nodup_map hn (List.mem_of_find?_eq_some hf) hr h1]
      rw [setNodeAttributes_get? nodes d hwf hw, if_pos hv, hget, hf]
      simp [(rowDict_spec df r.2).2, hc]
    · rw [setNodeAttributes_get? nodes d hwf hw]
      by_cases hv : v ∈ nodes
      · rw [if_pos hv, hget]
        rcases hf : df.rows.find? (fun r => r.1 = v) with _ | r
        · rw [hf]; rfl
        · have h1 := List.find?_some hf
          simp only [decide_eq_true_eq] at h1
          have hc : c ∉ df.columns := by
            rcases hvc with h | h | h
            · exact absurd hv h
            · exact absurd (List.mem_map.2 ⟨r, List.mem_of_find?_eq_some hf, h1⟩) h
            · exact h
          rw [hf]
          simp [(rowDict_spec df r.2).2, hc]
      · rw [if_neg hv]

/-- **C84** (partial) `Graph.add_data(df, columns)`: `KeyError` when a requested column is missing, otherwise `ValueError` when an index label is
repeated; both leave all attributes as they were.  Otherwise every node with a row has the cells of its row in the requested columns as attributes, and
nodes without a row keep theirs.  Missing: the attributes named by columns that were not requested should stay; they stay only if the table has no such
column. -/
theorem C84_add_data_partial (nodes : Finset V) (df : DataFrame V W) (columns : Option (List String)) (attrs : V → Dict String W) :
    let cols := columns.getD df.columns
    (¬ (∀ c ∈ cols, c ∈ df.columns) → addData nodes df columns attrs = (.error .keyError, attrs)) ∧
    ((∀ c ∈ cols, c ∈ df.columns) → ¬ (df.rows.map (·.1)).Nodup → addData nodes df columns attrs = (.error .valueError, attrs)) ∧
    ((∀ c ∈ cols, c ∈ df.columns) → (df.rows.map (·.1)).Nodup → ∃ attrs', addData nodes df columns attrs = (.ok (), attrs') ∧
      (∀ r ∈ df.rows, r.1 ∈ nodes → ∀ c ∈ cols, (attrs' r.1).get? c = some (r.2 c)) ∧
      (∀ v c, v ∉ nodes ∨ v ∉ df.rows.map (·.1) → (attrs' v).get? c = (attrs v).get? c) ∧
      ((∀ c ∈ df.columns, c ∈ cols) → ∀ v c, c ∉ cols → (attrs' v).get? c = (attrs v).get? c)) := by
  intro cols
  obtain ⟨h1, h2, h3⟩ := addData_spec nodes df columns attrs
  refine ⟨h1, h2, fun h hn => ?_⟩
  obtain ⟨attrs', k1, k2, k3⟩ := h3 h hn
  exact ⟨attrs', k1, fun r hr hv c hc => k2 r hr hv c (h c hc), fun v c hvc => k3 v c (hvc.imp id .inl),
    fun hall v c hc => k3 v c (.inr (.inr (fun h' => hc (hall c h'))))⟩

/-- **C84** fails: `add_data` ignores `columns` when it writes attributes.  Every column of the table becomes an attribute of the nodes that have a row,
also when it was not requested, and overwrites an attribute of the same name. -/
theorem C84_columns_violation (nodes : Finset V) (df : DataFrame V W) (cols : List String) (attrs : V → Dict String W)
    (hcols : ∀ c ∈ cols, c ∈ df.columns) (hn : (df.rows.map (·.1)).Nodup) :
    ∃ attrs', addData nodes df (some cols) attrs = (.ok (), attrs') ∧
      ∀ r ∈ df.rows, r.1 ∈ nodes → ∀ c ∈ df.columns, c ∉ cols → (attrs' r.1).get? c = some (r.2 c) := by
  obtain ⟨attrs', k1, k2, -⟩ := (addData_spec nodes df (some cols) attrs).2.2 hcols hn
  exact ⟨attrs', k1, fun r hr hv c hc _ => k2 r hr hv c hc⟩

/-! ### Examples -/

/-- three nodes with an id and a population -/
def exAttrs : Fin 10 → Dict String (Fin 10)
  | 0 => ⟨[("id", 7), ("pop", 1)]⟩
  | 1 => ⟨[("id", 8), ("pop", 2)]⟩
  | _ => ⟨[("pop", 3)]⟩

/-- a table with two rows for the id 7 -/
def exRows : DataFrame (Fin 10) (Fin 10) where
  columns := ["id", "pop", "votes"]
  rows := [(0, fun c => if c = "id" then 7 else if c = "pop" then 4 else 5), (1, fun c => if c = "id" then 7 else if c = "pop" then 4 else 6),
    (2, fun c => if c = "id" then 8 else if c = "pop" then 4 else 9)]

/-- `join(df, ["votes"], "id", "id")`: the second row of id 7 counts, node 2 has no id and gets nothing -/
example : (joinData {0, 1, 2} exRows (some ["votes"]) (some "id") (some "id") exAttrs).1 = .ok () ∧
    ((joinData {0, 1, 2} exRows (some ["votes"]) (some "id") (some "id") exAttrs).2 0).get? "votes" = some 6 ∧
    ((joinData {0, 1, 2} exRows (some ["votes"]) (some "id") (some "id") exAttrs).2 0).get? "pop" = some 1 ∧
    ((joinData {0, 1, 2} exRows (some ["votes"]) (some "id") (some "id") exAttrs).2 2).get? "votes" = none := by decide +kernel

/-- the column used for matching cannot be requested, and node 3 has no row -/
example : (joinData {0, 1, 2} exRows (some ["id"]) (some "id") (some "id") exAttrs).1 = .error .keyError ∧
    (joinData {0, 1, 2, 3} exRows none none none exAttrs).1 = .error .keyError := by decide +kernel

/-- the hypotheses of `C84_columns_violation` hold for a requested column; the population of node 1 is overwritten -/
example : (∀ c ∈ ["votes"], c ∈ exRows.columns) ∧ (exRows.rows.map (·.1)).Nodup ∧
    (exAttrs 1).get? "pop" = some 2 ∧ ((addData {0, 1, 2} exRows (some ["votes"]) exAttrs).2 1).get? "pop" = some 4 := by decide +kernel

end GC

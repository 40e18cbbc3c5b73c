import Verif.Model.Heap
import Verif.Spec.Assignment

/-!
# What each updater should report, as a function of the graph and the current assignment only
-/

set_option linter.unusedSectionVars false

set_option autoImplicit false

namespace GC

variable {V P : Type} [LinearOrder V] [DecidableEq P]

/-- `e` is an edge of the graph, endpoints in increasing order. -/
def IsSortedEdge (G : Graph V) (e : V × V) : Prop := e.1 ≤ e.2 ∧ G.Adj e.1 e.2

/-- The sorted edges whose endpoints have different districts. -/
def cutsOf (G : Graph V) (m : Dict V P) : Finset (V × V) :=
  (G.edges.image sortPair).filter (fun e => m.get? e.1 ≠ m.get? e.2)

/-- The cut edges having an endpoint in district `p`. -/
def cutsTouching (G : Graph V) (m : Dict V P) (p : P) : Finset (V × V) :=
  (cutsOf G m).filter (fun e => m.get? e.1 = some p ∨ m.get? e.2 = some p)

theorem mem_cutsOf {G : Graph V} {m : Dict V P} {e : V × V} :
    e ∈ cutsOf G m ↔ IsSortedEdge G e ∧ m.get? e.1 ≠ m.get? e.2 := by
  unfold cutsOf IsSortedEdge Graph.Adj
  simp only [Finset.mem_filter, Finset.mem_image]
  apply and_congr_left
  intro _
  constructor
  · rintro ⟨⟨a, b⟩, h, rfl⟩
    unfold sortPair
    split
    · rename_i hle; exact ⟨hle, Or.inl h⟩
    · rename_i hle; exact ⟨(not_le.1 hle).le, Or.inr h⟩
  · rintro ⟨hle, h | h⟩
    · exact ⟨e, h, by unfold sortPair; rw [if_pos hle]⟩
    · refine ⟨(e.2, e.1), h, ?_⟩
      rw [sortPair_comm]; unfold sortPair; rw [if_pos hle]

theorem mem_cutsTouching {G : Graph V} {m : Dict V P} {p : P} {e : V × V} :
    e ∈ cutsTouching G m p ↔ IsSortedEdge G e ∧ m.get? e.1 ≠ m.get? e.2 ∧
      (m.get? e.1 = some p ∨ m.get? e.2 = some p) := by
  unfold cutsTouching
  rw [Finset.mem_filter, mem_cutsOf, and_assoc]

/-- Sum of a column over a set of nodes, NaN entries left out. -/
def sumSkipNaN (val : V → Num) (s : Finset V) : ℚ := s.sum (fun v => (val v).unbotD 0)

/-- A tally `d` is right for assignment `a` (`moved` = nodes that were flipped on the way): provided no NaN node was
moved, every reported value is the sum over the district without NaN entries, every district with a non-NaN node
is reported and only districts are reported. -/
def TallyOK (val : V → Num) (moved : V → Prop) (a : Assignment V P) (d : Dict P Num) : Prop :=
  (∀ v, moved v → val v ≠ ⊥) →
    (∀ p x, d.get? p = some x → x = ((sumSkipNaN val (a.partOf p) : ℚ) : Num)) ∧
    (∀ p v, v ∈ a.partOf p → val v ≠ ⊥ → p ∈ d.keys) ∧
    (∀ p, p ∈ d.keys → p ∈ a.parts.keys)

/-- An election value is right: for every party the counts are a right tally of its column, the regions are the
districts, and totals are the sums of the counts. -/
structure ElectionOK (D : GraphData V) (moved : V → Prop) (parties : List (String × String)) (a : Assignment V P)
    (r : ElectionVal P) : Prop where
  counts : ∀ party col, (party, col) ∈ parties → (parties.map (·.1)).Nodup →
    ∃ d, r.totalsForParty.get? party = some d ∧ TallyOK (D.col col) moved a d
  regions : r.regions = a.parts.keys
  totals : ∀ p ∈ a.parts.keys, ∃ cs : List Num,
    List.Forall₂ (fun pc c => ∃ d, r.totalsForParty.get? pc.1 = some d ∧ d.get? p = some c) parties cs ∧
    r.totals.get? p = some cs.sum
  totalsKeys : r.totals.keys = a.parts.keys

/-- County information is right except for the NEW/OLD flag, which is treated in `Verif.Props.Splits`: one entry per
county, listing its nodes and the districts it meets; flagged as split exactly when it meets two districts. -/
structure CountiesOK (allNodes : Finset V) (county : V → String) (a : Assignment V P)
    (d : Dict String (CountyInfo V P)) : Prop where
  wf : d.WF
  keys : ∀ c, c ∈ d.keys ↔ ∃ v ∈ allNodes, county v = c
  nodes : ∀ c i, d.get? c = some i → ∀ v, v ∈ i.nodes ↔ v ∈ allNodes ∧ county v = c
  contains : ∀ c i, d.get? c = some i → ∀ p, p ∈ i.contains ↔ ∃ v ∈ allNodes, county v = c ∧ a.mapping.get? v = some p
  split : ∀ c i, d.get? c = some i → (i.split = .notSplit ↔ i.contains.card ≤ 1)

/-- The value `x` of updater `k` is right for the assignment `a`. -/
def Correct (D : GraphData V) (moved : V → Prop) (a : Assignment V P) : Key → Val V P → Prop
  | .cutEdges, .edgeSet s => s = cutsOf D.graph a.mapping
  | .cutEdgesByPart, .edgesByPart d => ∀ p, (d.get? p).getD ∅ = cutsTouching D.graph a.mapping p
  | .tally fields, .nums d => TallyOK (tallyFromNode D fields) moved a d
  | .dataTally col, .nums d => TallyOK (D.col col) moved a d
  | .boundaryNodes, .nodeSet s => s = D.graph.nodes.filter (fun v => D.boundaryNode v)
  | .extBoundarySet, .nodesByPart d =>
    ∀ p, (d.get? p).getD ∅ = (a.partOf p).filter (fun v => D.boundaryNode v)
  | .extBoundary, .rats d =>
    ∀ p, (d.get? p).getD 0 = ((a.partOf p).filter (fun v => D.boundaryNode v)).sum D.boundaryPerim
  | .intBoundary, .rats d =>
    (∀ p, p ∈ a.parts.keys → p ∈ d.keys) ∧
    ∀ p x, d.get? p = some x → x = (cutsTouching D.graph a.mapping p).sum D.sharedPerim
  | .perimeter, .rats d =>
    ∀ p ∈ a.parts.keys, d.get? p = some (((a.partOf p).filter (fun v => D.boundaryNode v)).sum D.boundaryPerim +
      (cutsTouching D.graph a.mapping p).sum D.sharedPerim)
  | .election parties, .election r => ElectionOK D moved parties a r
  | .countySplits field, .counties d => CountiesOK D.graph.nodes (D.region field) a d
  | _, _ => False

/-- Dictionary `e` has the entries of `d`, and possibly further entries holding the default value. -/
def Dict.ExtendsBy {K B : Type} [DecidableEq K] (d e : Dict K B) (dflt : B) : Prop :=
  (∀ k z, d.get? k = some z → e.get? k = some z) ∧ (∀ k z, e.get? k = some z → d.get? k = none → z = dflt)

/-- `y` is the value `x`, except that a `defaultdict` may have gained default entries. -/
inductive Val.SameUpToDefaults : Val V P → Val V P → Prop
  | refl (x : Val V P) : SameUpToDefaults x x
  | edges {d e : Dict P (Finset (V × V))} (h : d.ExtendsBy e ∅) : SameUpToDefaults (.edgesByPart d) (.edgesByPart e)
  | nodes {d e : Dict P (Finset V)} (h : d.ExtendsBy e ∅) : SameUpToDefaults (.nodesByPart d) (.nodesByPart e)
  | rats {d e : Dict P ℚ} (h : d.ExtendsBy e 0) : SameUpToDefaults (.rats d) (.rats e)

theorem Dict.ExtendsBy.trans {K B : Type} [DecidableEq K] {d e f : Dict K B} {dflt : B} (h : d.ExtendsBy e dflt)
    (h' : e.ExtendsBy f dflt) : d.ExtendsBy f dflt := by
  refine ⟨fun k z hz => h'.1 k z (h.1 k z hz), fun k z hz hd => ?_⟩
  rcases he : e.get? k with _ | y
  · exact h'.2 k z hz he
  · have := h'.1 k y he
    rw [hz] at this
    cases this
    exact h.2 k z he hd

theorem Val.SameUpToDefaults.trans {x y z : Val V P} (h : x.SameUpToDefaults y) (h' : y.SameUpToDefaults z) :
    x.SameUpToDefaults z := by
  cases h with
  | refl => exact h'
  | edges h => cases h' with
    | refl => exact .edges h
    | edges h' => exact .edges (h.trans h')
  | nodes h => cases h' with
    | refl => exact .nodes h
    | nodes h' => exact .nodes (h.trans h')
  | rats h => cases h' with
    | refl => exact .rats h
    | rats h' => exact .rats (h.trans h')

end GC

import Verif.Lemmas.HeapStable
import Verif.Props.Assignment

/-!
# C01–C10 on histories of partition objects

Every theorem quantifies over all graphs (`D.graph.WF` is what networkx guarantees), all registered updaters and all
histories `ops` of construction, flip, updater lookup and parent erasure.  `Op.WF` says that the dictionaries passed
by the caller have unique keys.
-/

set_option linter.unusedSectionVars false
set_option autoImplicit false

namespace GC

variable {V P : Type} [LinearOrder V] [DecidableEq P]

/-- `partition[k]`: the value or exception seen by the caller. -/
def Heap.lookup (H : Heap V P) (p : ℕ) (k : Key) (limit : ℕ) : Py (Val V P) := (getitem H.frame limit k p H.caches).1

/-- The heap after a history. -/
def Heap.after (D : GraphData V) (ups : List Key) (ops : List (Op V P)) : Heap V P := (Heap.start D ups).run ops

section
variable {D : GraphData V} {ups : List Key} {ops : List (Op V P)}

theorem after_inv (hD : D.graph.WF) (hops : ∀ op ∈ ops, op.WF) :
    HeapInv (Heap.after D ups ops) ∧ (Heap.after D ups ops).frame.data = D ∧
      (Heap.after D ups ops).frame.updaters = ups := by
  obtain ⟨h1, h2⟩ := (heapInv_start (P := P) hD ups).run hops
  exact ⟨h1, h2.data, h2.updaters⟩

theorem lookup_correct (hD : D.graph.WF) (hops : ∀ op ∈ ops, op.WF) {p : ℕ} {k : Key} {limit : ℕ} {x : Val V P}
    {v : View V P} (hv : (Heap.after D ups ops).frame.view p = some v)
    (hx : (Heap.after D ups ops).lookup p k limit = .ok x) :
    Correct D ((Heap.after D ups ops).frame.moved p) v.assignment k x := by
  obtain ⟨hi, hd, -⟩ := after_inv (ups := ups) hD hops
  have := getitem_sat hi.frame limit k p _ hi.caches
  unfold Heap.lookup at hx
  revert this hx
  rcases getitem (Heap.after D ups ops).frame limit k p (Heap.after D ups ops).caches with ⟨_ | a, s'⟩
  · intro hx _; cases hx
  · intro hx h
    cases hx
    obtain ⟨-, w, hw, hc⟩ := h
    rw [hv] at hw
    cases hw
    rw [hd] at hc
    exact hc

/-- In every history a parent is older than its child: an object with less than `n` objects made before it has less than `n` generations of ancestors. -/
theorem shallow_after (hD : D.graph.WF) (hops : ∀ op ∈ ops, op.WF) {p n : ℕ} (h : p < n) : (Heap.after D ups ops).frame.Shallow n p :=
  (after_inv (ups := ups) hD hops).1.frame.shallow n h

theorem lookup_total (hD : D.graph.WF) (hops : ∀ op ∈ ops, op.WF) {p : ℕ} {k : Key} {limit : ℕ}
    {v : View V P} (hv : (Heap.after D ups ops).frame.view p = some v) (hk : k ∈ ups) (hl : (Heap.after D ups ops).frame.Shallow (limit - level k) p)
    (hdeps : DepsOK (Heap.after D ups ops).frame p k) :
    ∃ x, (Heap.after D ups ops).lookup p k limit = .ok x := by
  obtain ⟨hi, hd, hu⟩ := after_inv (ups := ups) hD hops
  have := getitem_sat hi.frame limit k p _ hi.caches
  unfold Heap.lookup
  revert this
  rcases getitem (Heap.after D ups ops).frame limit k p (Heap.after D ups ops).caches with ⟨_ | a, s'⟩
  · intro h
    exact absurd ⟨Frame.lt_of_view hv, by rw [hu]; exact hk, hl.safe, hdeps⟩ h.2
  · intro _; exact ⟨a, rfl⟩

/-- **C01 (partition objects).** In every history every partition assigns each graph node to exactly one district and
both views of its assignment agree. -/
theorem C01_partition_views (hD : D.graph.WF) (hops : ∀ op ∈ ops, op.WF) {p : ℕ} {v : View V P}
    (hv : (Heap.after D ups ops).frame.view p = some v) :
    (∀ n part, (∃ s, v.assignment.parts.get? part = some s ∧ n ∈ s) ↔ v.assignment.mapping.get? n = some part) ∧
    (∀ n, n ∈ D.graph.nodes ↔ ∃ part, v.assignment.mapping.get? n = some part) := by
  obtain ⟨hi, hd, hu⟩ := after_inv (ups := ups) hD hops
  have hc := hi.frame.coherent p v hv
  have hcov := hi.frame.covers p v hv
  rw [hd] at hcov
  refine ⟨?_, ?_⟩
  · intro n part
    constructor
    · rintro ⟨s, hs, hn⟩; exact (hc.agree part s hs n).1 hn
    · intro h
      obtain ⟨s, hs⟩ := Dict.mem_keys_iff.1 (hc.complete n part h)
      exact ⟨s, hs, (hc.agree part s hs n).2 h⟩
  · intro n
    rw [← hcov n, Dict.mem_keys_iff]

/-- **C02 (partition objects).** If `partition.flip(flips)` returns, the child is a new object whose parent is the
partition; it has the flipped districts on flipped nodes, the parent's on others, and the same district labels. -/
theorem C02_partition_flip (hD : D.graph.WF) (hops : ∀ op ∈ ops, op.WF) {p : ℕ} {flips : Dict V P} (hf : flips.WF)
    {F' : Frame V P} (h : (Heap.after D ups ops).frame.flip p flips = .ok F') :
    ∃ v w, (Heap.after D ups ops).frame.view p = some v ∧
      F'.view (Heap.after D ups ops).frame.objs.length = some w ∧ w.parent = some p ∧ w.flips = some flips ∧
      (∀ n part, flips.get? n = some part → w.assignment.mapping.get? n = some part) ∧
      (∀ n, flips.get? n = none → w.assignment.mapping.get? n = v.assignment.mapping.get? n) ∧
      w.assignment.parts.keys = v.assignment.parts.keys := by
  obtain ⟨hi, -, -⟩ := after_inv (ups := ups) hD hops
  obtain ⟨hF', -, v, b, hv, hb, w, hw, rfl, hwp⟩ := hi.frame.flip hf h
  have hs := flip_ok (hi.frame.coherent p v hv) hf hb
  have hfl : w.flips = some flips := by
    obtain ⟨flows, ef, g1, -⟩ := (flip_frame hi.frame hf hv).2 _ hb
    rw [g1] at h
    cases h
    rw [view_push_new] at hw
    exact (congrArg View.flips (Option.some.inj hw)).symm
  refine ⟨v, w, hv, hw, hwp, hfl, ?_, ?_, hs.keys⟩
  · intro n part hn; rw [hs.get?, hn]; rfl
  · intro n hn; rw [hs.get?, hn]; rfl

/-- **C03 (partition objects).** `partition.flip(flips)` on an existing partition raises exactly when a flipped node
is not in the graph or a district is unknown, and then raises `KeyError`. -/
theorem C03_partition_flip (hD : D.graph.WF) (hops : ∀ op ∈ ops, op.WF) {p : ℕ} {flips : Dict V P} (hf : flips.WF)
    {v : View V P} (hv : (Heap.after D ups ops).frame.view p = some v) (e : PyErr) :
    (Heap.after D ups ops).frame.flip p flips = .error e ↔
      e = .keyError ∧ ((∃ n ∈ flips.keys, n ∉ D.graph.nodes) ∨ ∃ part ∈ flips.values, part ∉ v.assignment.parts.keys) := by
  obtain ⟨hi, hd, -⟩ := after_inv (ups := ups) hD hops
  have hc := hi.frame.coherent p v hv
  have hcov := hi.frame.covers p v hv
  rw [hd] at hcov
  have key : (Heap.after D ups ops).frame.flip p flips = .error e ↔ v.assignment.flip flips = .error e := by
    obtain ⟨h1, h2⟩ := flip_frame hi.frame hf hv
    constructor
    · intro h
      rcases hb : v.assignment.flip flips with e' | b
      · have := h1 e' hb
        rw [h] at this
        cases this; rfl
      · obtain ⟨flows, ef, g, -⟩ := h2 b hb
        rw [h] at g; cases g
    · exact h1 e
  rw [key]
  constructor
  · intro h
    obtain ⟨h1, h2⟩ := flip_error hc hf h
    refine ⟨h1, ?_⟩
    rcases h2 with ⟨n, hn, hn'⟩ | h2
    · exact Or.inl ⟨n, hn, fun h => hn' ((hcov n).2 h)⟩
    · exact Or.inr h2
  · rintro ⟨rfl, h⟩
    rcases hr : v.assignment.flip flips with e | b
    · rw [(flip_error hc hf hr).1]
    · exfalso
      have hs := flip_ok hc hf hr
      rcases h with ⟨n, hn, hn'⟩ | ⟨q, hq, hq'⟩
      · obtain ⟨q, hq⟩ := Dict.mem_keys_iff.1 hn
        obtain ⟨r, hr⟩ := hs.known n q hq
        exact hn' ((hcov n).1 (Dict.mem_keys_iff.2 ⟨r, hr⟩))
      · obtain ⟨n, hn⟩ := (Dict.mem_values_iff hf).1 hq
        apply hq'
        rw [← hs.keys]
        apply hs.coherent.complete n q
        rw [hs.get?, hn]; rfl

/-- **C04.** In every history `partition["cut_edges"]` is exactly the set of sorted graph edges whose endpoints lie in
different districts; the lookup succeeds whenever the updater is registered and following `.parent` ends within the
recursion limit (by `shallow_after`: for instance when the limit exceeds the number of objects created before). -/
theorem C04_cut_edges_exact (hD : D.graph.WF) (hops : ∀ op ∈ ops, op.WF) {p : ℕ} {v : View V P}
    (hv : (Heap.after D ups ops).frame.view p = some v) (limit : ℕ) :
    (∀ x, (Heap.after D ups ops).lookup p .cutEdges limit = .ok x → ∃ s, x = .edgeSet s ∧
      ∀ e, e ∈ s ↔ e.1 ≤ e.2 ∧ D.graph.Adj e.1 e.2 ∧
        v.assignment.mapping.get? e.1 ≠ v.assignment.mapping.get? e.2) ∧
    (Key.cutEdges ∈ ups → (Heap.after D ups ops).frame.Shallow limit p → ∃ x, (Heap.after D ups ops).lookup p .cutEdges limit = .ok x) := by
  constructor
  · intro x hx
    refine ⟨_, (lookup_correct hD hops hv hx).cutEdges, ?_⟩
    intro e
    rw [mem_cutsOf, IsSortedEdge, and_assoc]
  · intro hk hl
    exact lookup_total hD hops hv hk hl trivial

/-- **C05.** In every history `partition["cut_edges_by_part"][d]` is exactly the set of cut edges with an endpoint in
`d`; the lookup succeeds when `cut_edges` is registered too (the code needs its edge flows). -/
theorem C05_cut_edges_by_part_exact (hD : D.graph.WF) (hops : ∀ op ∈ ops, op.WF) {p : ℕ} {v : View V P}
    (hv : (Heap.after D ups ops).frame.view p = some v) (limit : ℕ) :
    (∀ x, (Heap.after D ups ops).lookup p .cutEdgesByPart limit = .ok x → ∃ d, x = .edgesByPart d ∧
      ∀ part e, e ∈ (d.get? part).getD ∅ ↔ e.1 ≤ e.2 ∧ D.graph.Adj e.1 e.2 ∧
        v.assignment.mapping.get? e.1 ≠ v.assignment.mapping.get? e.2 ∧
        (v.assignment.mapping.get? e.1 = some part ∨ v.assignment.mapping.get? e.2 = some part)) ∧
    (Key.cutEdgesByPart ∈ ups → Key.cutEdges ∈ ups → (Heap.after D ups ops).frame.Shallow limit p →
      ∃ x, (Heap.after D ups ops).lookup p .cutEdgesByPart limit = .ok x) := by
  constructor
  · intro x hx
    obtain ⟨d, rfl, h⟩ := (lookup_correct hD hops hv hx).cutEdgesByPart
    refine ⟨d, rfl, ?_⟩
    intro part e
    rw [h, mem_cutsTouching, IsSortedEdge, and_assoc]
  · intro hk hk' hl
    refine lookup_total hD hops hv hk hl ?_
    show _ ∈ (Heap.after D ups ops).frame.updaters
    rw [(after_inv (ups := ups) hD hops).2.2]
    exact hk'

theorem sumSkipNaN_of_coe {val : V → Num} {q : V → ℚ} (h : ∀ v, val v = ((q v : ℚ) : Num)) (s : Finset V) :
    sumSkipNaN val s = s.sum q := by
  unfold sumSkipNaN
  apply Finset.sum_congr rfl
  intro v _
  rw [h]; rfl

theorem tallyFromNode_coe {fields : List String} {q : String → V → ℚ}
    (hq : ∀ f ∈ fields, ∀ v, D.col f v = ((q f v : ℚ) : Num)) (v : V) :
    tallyFromNode D fields v = (((fields.map (fun f => q f v)).sum : ℚ) : Num) := by
  unfold tallyFromNode
  induction fields with
  | nil => rfl
  | cons f fs ih =>
    simp only [List.map_cons, List.sum_cons]
    rw [ih (fun f hf => hq f (List.mem_cons_of_mem _ hf)), hq f List.mem_cons_self]
    rfl

theorem get?_partOf {a : Assignment V P} {part : P} {s : Finset V} (h : a.parts.get? part = some s) :
    a.partOf part = s := by unfold Assignment.partOf; rw [h]; rfl

theorem tally_exact {val : V → Num} {q : V → ℚ} (h : ∀ v, val v = ((q v : ℚ) : Num)) {moved : V → Prop}
    {a : Assignment V P} {d : Dict P Num} (ht : TallyOK val moved a d) :
    (∀ part x, d.get? part = some x → ∃ s, a.parts.get? part = some s ∧ x = ((s.sum q : ℚ) : Num)) ∧
    (∀ part s, a.parts.get? part = some s → s.Nonempty → d.get? part = some ((s.sum q : ℚ) : Num)) := by
  obtain ⟨h1, h2, h3⟩ := ht (fun v _ => by rw [h]; exact WithBot.coe_ne_bot)
  have h1' : ∀ part x, d.get? part = some x → ∃ s, a.parts.get? part = some s ∧ x = ((s.sum q : ℚ) : Num) := by
    intro part x hx
    obtain ⟨s, hs⟩ := Dict.mem_keys_iff.1 (h3 part (Dict.mem_keys_iff.2 ⟨x, hx⟩))
    refine ⟨s, hs, ?_⟩
    rw [h1 part x hx, get?_partOf hs, sumSkipNaN_of_coe h]
  refine ⟨h1', ?_⟩
  rintro part s hs ⟨v, hv⟩
  obtain ⟨x, hx⟩ := Dict.mem_keys_iff.1 (h2 part v (by rw [get?_partOf hs]; exact hv) (by rw [h]; exact WithBot.coe_ne_bot))
  obtain ⟨s', hs', hx'⟩ := h1' part x hx
  rw [hs] at hs'; cases hs'
  rw [hx, hx']

theorem filled_of {val : V → Num} {q : V → ℚ} (h : ∀ v, val v = ((q v : ℚ) : Num)) {F : Frame V P} {i : ℕ}
    (hne : ∀ w part s, F.view i = some w → w.assignment.parts.get? part = some s → s.Nonempty) : F.Filled val i := by
  intro w hw part hpart
  obtain ⟨s, hs⟩ := Dict.mem_keys_iff.1 hpart
  obtain ⟨v, hv⟩ := hne w part s hw hs
  exact ⟨v, by rw [get?_partOf hs]; exact hv, by rw [h]; exact WithBot.coe_ne_bot⟩

theorem tallySafe_of {val : V → Num} {q : V → ℚ} (h : ∀ v, val v = ((q v : ℚ) : Num)) {F : Frame V P} {p : ℕ}
    (hne : ∀ i w part s, F.Ancestor p i → F.view i = some w → w.assignment.parts.get? part = some s → s.Nonempty) :
    TallySafe F val p :=
  ⟨fun v _ => by rw [h]; exact WithBot.coe_ne_bot, fun i hi => filled_of h (fun w part s => hne i w part s hi)⟩

/-- **C06.** For columns without NaN (`D.col f v` is the number `q f v`): in every history each entry of the tally is
the sum of the columns over the district, every nonempty district has an entry, and the lookup cannot fail if no
ancestor of the partition has an empty district. -/
theorem C06_tally_exact (hD : D.graph.WF) (hops : ∀ op ∈ ops, op.WF) {p : ℕ} {v : View V P}
    (hv : (Heap.after D ups ops).frame.view p = some v) (limit : ℕ) (fields : List String) (q : String → V → ℚ)
    (hq : ∀ f ∈ fields, ∀ n, D.col f n = ((q f n : ℚ) : Num)) :
    (∀ x, (Heap.after D ups ops).lookup p (.tally fields) limit = .ok x → ∃ d, x = .nums d ∧
      (∀ part y, d.get? part = some y → ∃ s, v.assignment.parts.get? part = some s ∧
        y = ((∑ n ∈ s, (fields.map (fun f => q f n)).sum : ℚ) : Num)) ∧
      (∀ part s, v.assignment.parts.get? part = some s → s.Nonempty →
        d.get? part = some ((∑ n ∈ s, (fields.map (fun f => q f n)).sum : ℚ) : Num))) ∧
    (Key.tally fields ∈ ups → (Heap.after D ups ops).frame.Shallow limit p →
      (∀ i w part s, (Heap.after D ups ops).frame.Ancestor p i → (Heap.after D ups ops).frame.view i = some w →
        w.assignment.parts.get? part = some s → s.Nonempty) →
      ∃ x, (Heap.after D ups ops).lookup p (.tally fields) limit = .ok x) := by
  have hc := tallyFromNode_coe hq
  constructor
  · intro x hx
    obtain ⟨d, rfl, h⟩ := (lookup_correct hD hops hv hx).tally
    exact ⟨d, rfl, tally_exact hc h⟩
  · intro hk hl hne
    refine lookup_total hD hops hv hk hl ?_
    show TallySafe _ _ _
    rw [(after_inv (ups := ups) hD hops).2.1]
    exact tallySafe_of hc hne

/-- **C06 (DataTally).** The same for a `DataTally` of one column. -/
theorem C06_data_tally_exact (hD : D.graph.WF) (hops : ∀ op ∈ ops, op.WF) {p : ℕ} {v : View V P}
    (hv : (Heap.after D ups ops).frame.view p = some v) (limit : ℕ) (col : String) (q : V → ℚ)
    (hq : ∀ n, D.col col n = ((q n : ℚ) : Num)) :
    (∀ x, (Heap.after D ups ops).lookup p (.dataTally col) limit = .ok x → ∃ d, x = .nums d ∧
      (∀ part y, d.get? part = some y → ∃ s, v.assignment.parts.get? part = some s ∧ y = ((∑ n ∈ s, q n : ℚ) : Num)) ∧
      (∀ part s, v.assignment.parts.get? part = some s → s.Nonempty →
        d.get? part = some ((∑ n ∈ s, q n : ℚ) : Num))) ∧
    (Key.dataTally col ∈ ups → (Heap.after D ups ops).frame.Shallow limit p →
      (∀ i w part s, (Heap.after D ups ops).frame.Ancestor p i → (Heap.after D ups ops).frame.view i = some w →
        w.assignment.parts.get? part = some s → s.Nonempty) →
      ∃ x, (Heap.after D ups ops).lookup p (.dataTally col) limit = .ok x) := by
  constructor
  · intro x hx
    obtain ⟨d, rfl, h⟩ := (lookup_correct hD hops hv hx).dataTally
    exact ⟨d, rfl, tally_exact hq h⟩
  · intro hk hl hne
    refine lookup_total hD hops hv hk hl ?_
    show TallySafe _ _ _
    rw [(after_inv (ups := ups) hD hops).2.1]
    exact tallySafe_of hq hne

/-- **C07 (partial).** A tally ignores NaN entries as long as no node with a NaN entry was ever flipped.  Missing: the
claim without that hypothesis is false, see `C07_nan_violation`. -/
theorem C07_tally_ignores_nan_partial (hD : D.graph.WF) (hops : ∀ op ∈ ops, op.WF) {p : ℕ} {v : View V P}
    (hv : (Heap.after D ups ops).frame.view p = some v) (limit : ℕ) (fields : List String)
    (hm : ∀ i w fl n, (Heap.after D ups ops).frame.view i = some w → w.flips = some fl → n ∈ fl.keys →
      ∀ f ∈ fields, D.col f n ≠ ⊥)
    (x : Val V P) (hx : (Heap.after D ups ops).lookup p (.tally fields) limit = .ok x) : ∃ d, x = .nums d ∧
      (∀ part y, d.get? part = some y → ∃ s, v.assignment.parts.get? part = some s ∧
        y = ((∑ n ∈ s.filter (fun n => ∀ f ∈ fields, D.col f n ≠ ⊥),
          (fields.map (fun f => (D.col f n).unbotD 0)).sum : ℚ) : Num)) ∧
      (∀ part s n, v.assignment.parts.get? part = some s → n ∈ s → (∀ f ∈ fields, D.col f n ≠ ⊥) → part ∈ d.keys) := by
  have hbot : ∀ n, tallyFromNode D fields n = ⊥ ↔ ¬ ∀ f ∈ fields, D.col f n ≠ ⊥ := by
    intro n
    unfold tallyFromNode
    clear hm hx
    induction fields with
    | nil => simp
    | cons f fs ih =>
      simp only [List.map_cons, List.sum_cons, WithBot.add_eq_bot, ih, List.forall_mem_cons]
      tauto
  have hval : ∀ n, (∀ f ∈ fields, D.col f n ≠ ⊥) →
      tallyFromNode D fields n = (((fields.map (fun f => (D.col f n).unbotD 0)).sum : ℚ) : Num) := by
    intro n hn
    unfold tallyFromNode
    clear hm hx hbot
    induction fields with
    | nil => rfl
    | cons f fs ih =>
      simp only [List.map_cons, List.sum_cons]
      rw [ih (fun f hf => hn f (List.mem_cons_of_mem _ hf)), WithBot.coe_add,
        Num.coe_unbotD (hn f List.mem_cons_self)]
  obtain ⟨d, rfl, h⟩ := (lookup_correct hD hops hv hx).tally
  obtain ⟨hi, -, -⟩ := after_inv (ups := ups) hD hops
  obtain ⟨h1, h2, h3⟩ := h (by
    rintro n ⟨i, -, o, ho, fl, hfl, hn⟩
    have hlt : i < (Heap.after D ups ops).frame.objs.length := by
      by_contra hc
      rw [List.getElem?_eq_none (by omega)] at ho; cases ho
    obtain ⟨w, hw⟩ := hi.frame.exists_view hlt
    obtain ⟨o', ho', -, -, -, hof, -⟩ := Frame.view_eq_some hw
    rw [ho] at ho'; cases ho'
    rw [Ne, hbot, not_not]
    exact hm i w fl n hw (by rw [hof, hfl]) hn)
  refine ⟨d, rfl, ?_, ?_⟩
  · intro part y hy
    obtain ⟨s, hs⟩ := Dict.mem_keys_iff.1 (h3 part (Dict.mem_keys_iff.2 ⟨y, hy⟩))
    refine ⟨s, hs, ?_⟩
    rw [h1 part y hy, get?_partOf hs]
    unfold sumSkipNaN
    rw [Finset.sum_filter]
    congr 1
    apply Finset.sum_congr rfl
    intro n _
    split
    · rename_i hn; rw [hval n hn]; rfl
    · rename_i hn; rw [(hbot n).2 hn]; rfl
  · intro part s n hs hn hnn
    exact h2 part n (by rw [get?_partOf hs]; exact hn) (fun h => (hbot n).1 h hnn)

/-- **C08 (assignments).** No later operation changes the assignment of an existing partition. -/
theorem C08_assignment_unchanged (hD : D.graph.WF) (hops : ∀ op ∈ ops, op.WF) {later : List (Op V P)}
    (hlater : ∀ op ∈ later, op.WF) {p : ℕ} {v : View V P} (hv : (Heap.after D ups ops).frame.view p = some v) :
    ∃ w, (Heap.after D ups (ops ++ later)).frame.view p = some w ∧ w.assignment = v.assignment := by
  obtain ⟨hi, -, -⟩ := after_inv (ups := ups) hD hops
  have h := (hi.run hlater).2.view p v hv
  have : Heap.after D ups (ops ++ later) = (Heap.after D ups ops).run later := by
    unfold Heap.after Heap.run; rw [List.foldl_append]
  rw [this]
  exact h

/-- **C08 (values, partial).** A value reported once is reported again after any later operations, except that a
`defaultdict` may have gained entries holding the default (empty set or 0).  Missing: strict equality of the reported
dictionary fails, see `C08_defaultdict_violation`. -/
theorem C08_values_unchanged_partial (hD : D.graph.WF) (hops : ∀ op ∈ ops, op.WF) {later : List (Op V P)}
    (hlater : ∀ op ∈ later, op.WF) {p : ℕ} {k : Key} {limit limit' : ℕ} {x : Val V P}
    (hx : (Heap.after D ups ops).lookup p k limit = .ok x) :
    ∃ y, (Heap.after D ups (ops ++ [.lookup p k limit] ++ later)).lookup p k (limit' + 1) = .ok y ∧
      x.SameUpToDefaults y := by
  have hops' : ∀ op ∈ ops ++ [Op.lookup p k limit], op.WF := by
    intro op hop
    rcases List.mem_append.1 hop with h | h
    · exact hops op h
    · simp only [List.mem_singleton] at h; subst h; trivial
  obtain ⟨hi, -, -⟩ := after_inv (ups := ups) hD hops'
  have h1 : Heap.after D ups (ops ++ [.lookup p k limit] ++ later) =
      (Heap.after D ups (ops ++ [.lookup p k limit])).run later := by
    unfold Heap.after Heap.run; rw [List.foldl_append]
  have h2 : Heap.after D ups (ops ++ [.lookup p k limit]) = (Heap.after D ups ops).step (.lookup p k limit) := by
    unfold Heap.after Heap.run; rw [List.foldl_append]; rfl
  have h3 : ((Heap.after D ups (ops ++ [.lookup p k limit])).caches p).get? k = some x := by
    rw [h2]; exact getitem_cached hx
  obtain ⟨y, hy, hxy⟩ := run_grows hi hlater p k x h3
  refine ⟨y, ?_, hxy⟩
  rw [h1]
  unfold Heap.lookup
  rw [getitem_of_cached hy]

/-- **C09.** In every history the boundary updaters report exactly: exterior boundary = total `boundary_perim` of the
boundary nodes of the district; interior boundary = total `shared_perim` of the cut edges touching it; perimeter =
their sum, for every district.  Lookups succeed when the updaters they read are registered. -/
theorem C09_boundaries_exact (hD : D.graph.WF) (hops : ∀ op ∈ ops, op.WF) {p : ℕ} {v : View V P}
    (hv : (Heap.after D ups ops).frame.view p = some v) (limit : ℕ) :
    (∀ x, (Heap.after D ups ops).lookup p .extBoundary limit = .ok x → ∃ d, x = .rats d ∧
      ∀ part s, v.assignment.parts.get? part = some s →
        (d.get? part).getD 0 = ∑ n ∈ s.filter (fun n => D.boundaryNode n), D.boundaryPerim n) ∧
    (∀ x, (Heap.after D ups ops).lookup p .intBoundary limit = .ok x → ∃ d, x = .rats d ∧
      ∀ part ∈ v.assignment.parts.keys,
        d.get? part = some (∑ e ∈ cutsTouching D.graph v.assignment.mapping part, D.sharedPerim e)) ∧
    (∀ x, (Heap.after D ups ops).lookup p .perimeter limit = .ok x → ∃ d, x = .rats d ∧
      ∀ part s, v.assignment.parts.get? part = some s →
        d.get? part = some (∑ n ∈ s.filter (fun n => D.boundaryNode n), D.boundaryPerim n +
          ∑ e ∈ cutsTouching D.graph v.assignment.mapping part, D.sharedPerim e)) ∧
    (Key.extBoundary ∈ ups → Key.boundaryNodes ∈ ups → (Heap.after D ups ops).frame.Shallow (limit - 1) p →
      ∃ x, (Heap.after D ups ops).lookup p .extBoundary limit = .ok x) ∧
    (Key.intBoundary ∈ ups → Key.cutEdges ∈ ups → Key.cutEdgesByPart ∈ ups → (Heap.after D ups ops).frame.Shallow (limit - 1) p →
      ∃ x, (Heap.after D ups ops).lookup p .intBoundary limit = .ok x) ∧
    (Key.perimeter ∈ ups → Key.extBoundary ∈ ups → Key.boundaryNodes ∈ ups → Key.intBoundary ∈ ups →
      Key.cutEdges ∈ ups → Key.cutEdgesByPart ∈ ups → (Heap.after D ups ops).frame.Shallow (limit - 2) p →
      ∃ x, (Heap.after D ups ops).lookup p .perimeter limit = .ok x) := by
  have hu := (after_inv (P := P) (ups := ups) hD hops).2.2
  refine ⟨?_, ?_, ?_, ?_, ?_, ?_⟩
  · intro x hx
    obtain ⟨d, rfl, h⟩ := (lookup_correct hD hops hv hx).extBoundary
    refine ⟨d, rfl, fun part s hs => ?_⟩
    rw [h, get?_partOf hs]
  · intro x hx
    obtain ⟨d, rfl, h1, h2⟩ := (lookup_correct hD hops hv hx).intBoundary
    refine ⟨d, rfl, fun part hpart => ?_⟩
    obtain ⟨y, hy⟩ := Dict.mem_keys_iff.1 (h1 part hpart)
    rw [hy, h2 part y hy]
  · intro x hx
    obtain ⟨d, rfl, h⟩ := (lookup_correct hD hops hv hx).perimeter
    refine ⟨d, rfl, fun part s hs => ?_⟩
    rw [h part (Dict.mem_keys_iff.2 ⟨s, hs⟩), get?_partOf hs]
  · intro h1 h2 hl
    refine lookup_total hD hops hv h1 hl ?_
    show _ ∈ (Heap.after D ups ops).frame.updaters
    rw [hu]; exact h2
  · intro h1 h2 h3 hl
    refine lookup_total hD hops hv h1 hl ?_
    show _ ∈ (Heap.after D ups ops).frame.updaters ∧ _ ∈ (Heap.after D ups ops).frame.updaters
    rw [hu]; exact ⟨h2, h3⟩
  · intro h1 h2 h3 h4 h5 h6 hl
    refine lookup_total hD hops hv h1 hl ?_
    show _ ∈ (Heap.after D ups ops).frame.updaters ∧ _ ∈ (Heap.after D ups ops).frame.updaters ∧
      _ ∈ (Heap.after D ups ops).frame.updaters ∧ _ ∈ (Heap.after D ups ops).frame.updaters ∧
      _ ∈ (Heap.after D ups ops).frame.updaters
    rw [hu]; exact ⟨h5, h6, h3, h2, h4⟩

/-- **C10.** In every history `partition["exterior_boundaries_as_a_set"][d]` is exactly the set of boundary nodes
assigned to `d`. -/
theorem C10_exterior_set_exact (hD : D.graph.WF) (hops : ∀ op ∈ ops, op.WF) {p : ℕ} {v : View V P}
    (hv : (Heap.after D ups ops).frame.view p = some v) (limit : ℕ) :
    (∀ x, (Heap.after D ups ops).lookup p .extBoundarySet limit = .ok x → ∃ d, x = .nodesByPart d ∧
      ∀ part n, n ∈ (d.get? part).getD ∅ ↔ v.assignment.mapping.get? n = some part ∧ D.boundaryNode n = true) ∧
    (Key.extBoundarySet ∈ ups → Key.boundaryNodes ∈ ups → (Heap.after D ups ops).frame.Shallow (limit - 1) p →
      ∃ x, (Heap.after D ups ops).lookup p .extBoundarySet limit = .ok x) := by
  obtain ⟨hi, -, hu⟩ := after_inv (P := P) (ups := ups) hD hops
  constructor
  · intro x hx
    obtain ⟨d, rfl, h⟩ := (lookup_correct hD hops hv hx).extBoundarySet
    refine ⟨d, rfl, fun part n => ?_⟩
    rw [h, Finset.mem_filter, (hi.frame.coherent p v hv).mem_partOf]
  · intro h1 h2 hl
    refine lookup_total hD hops hv h1 hl ?_
    show _ ∈ (Heap.after D ups ops).frame.updaters
    rw [hu]; exact h2

end

/-! ### Concrete histories: non-vacuity and violations -/

/-- Path 0 – 1 – 2 – 3; column "pop" is 10, 20, 30, 40, column "nan" is NaN on node 1; 0 and 3 are boundary nodes. -/
def exData : GraphData ℕ where
  graph := ⟨{0, 1, 2, 3}, {(0, 1), (2, 1), (2, 3)}⟩
  col f v := if f = "nan" ∧ v = 1 then ⊥ else ((10 * (v + 1) : ℚ) : Num)
  boundaryNode v := v = 0 ∨ v = 3
  boundaryPerim _ := 1
  sharedPerim _ := 2
  region _ v := if v < 2 then "A" else "B"

/-- updaters registered in the examples -/
def exUps : List Key := [.cutEdges, .cutEdgesByPart, .tally ["pop"], .tally ["nan"], .dataTally "pop", .boundaryNodes,
  .extBoundary, .extBoundarySet, .intBoundary, .perimeter, .election [("D", "pop"), ("R", "pop")], .countySplits "county"]

/-- Create a plan, look something up, move node 1, look up on the child, erase the parent, flip back. -/
def exOps : List (Op ℕ ℕ) := [.create exDict, .lookup 0 .cutEdges 9, .flip 0 ⟨[(1, 2)]⟩, .lookup 1 .perimeter 9,
  .eraseParent 0, .flip 1 ⟨[(1, 1), (3, 2)]⟩]

theorem exData_wf : exData.graph.WF := by
  constructor <;> decide

theorem exOps_wf : ∀ op ∈ exOps, op.WF := by
  intro op hop
  simp only [exOps, List.mem_cons, List.not_mem_nil, or_false] at hop
  rcases hop with rfl | rfl | rfl | rfl | rfl | rfl <;> simp [Op.WF, exDict, Dict.WF, Dict.keys]

example : (Heap.after exData exUps exOps).lookup 2 .cutEdges 9 = .ok (.edgeSet {(1, 2)}) := by decide +kernel
example : (Heap.after exData exUps exOps).lookup 1 .cutEdges 9 = .ok (.edgeSet {(0, 1)}) := by decide +kernel
example : (Heap.after exData exUps exOps).lookup 2 .cutEdgesByPart 9 =
    .ok (.edgesByPart ⟨[(1, {(1, 2)}), (2, {(1, 2)})]⟩) := by decide +kernel
example : (Heap.after exData exUps exOps).lookup 1 (.tally ["pop"]) 9 = .ok (.nums ⟨[(1, (10 : ℚ)), (2, (90 : ℚ))]⟩) := by
  decide +kernel
example : (Heap.after exData exUps exOps).lookup 2 .perimeter 9 = .ok (.rats ⟨[(1, 3), (2, 3)]⟩) := by decide +kernel
example : (Heap.after exData exUps exOps).lookup 2 .extBoundarySet 9 = .ok (.nodesByPart ⟨[(1, {0}), (2, {3})]⟩) := by
  decide +kernel

/-- **C07 is violated**: node 1 has a NaN entry; moving it makes the tally of both districts NaN, although a fresh
partition with the same assignment reports numbers. -/
theorem C07_nan_violation :
    (Heap.after exData exUps [.create exDict, .flip 0 ⟨[(1, 2)]⟩]).lookup 1 (.tally ["nan"]) 9 =
      .ok (.nums ⟨[(1, ⊥), (2, ⊥)]⟩) ∧
    (Heap.after exData exUps [.create ⟨[(0, 1), (1, 2), (2, 2), (3, 2)]⟩]).lookup 0 (.tally ["nan"]) 9 =
      .ok (.nums ⟨[(1, (10 : ℚ)), (2, (70 : ℚ))]⟩) := by
  constructor <;> decide +kernel

/-- Two disjoint edges 0 – 1 and 2 – 3. -/
def exData2 : GraphData ℕ := { exData with graph := ⟨{0, 1, 2, 3}, {(0, 1), (2, 3)}⟩ }

/-- **C08 is violated for strict equality**: the first partition reports an empty `cut_edges_by_part` dictionary; after
looking the updater up on a child, the dictionary of the first partition has entries. -/
theorem C08_defaultdict_violation :
    (Heap.after exData2 exUps [.create exDict]).lookup 0 .cutEdgesByPart 9 = .ok (.edgesByPart ⟨[]⟩) ∧
    (Heap.after exData2 exUps [.create exDict, .lookup 0 .cutEdgesByPart 9, .flip 0 ⟨[(1, 2)]⟩,
      .lookup 1 .cutEdgesByPart 9]).lookup 0 .cutEdgesByPart 9 = .ok (.edgesByPart ⟨[(2, ∅), (1, ∅)]⟩) := by
  constructor <;> decide +kernel

end GC

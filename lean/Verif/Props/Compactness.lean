import Verif.Model.Compactness
import Verif.Props.Geo
import Verif.Props.Grid
import Mathlib.Tactic.Positivity
import Mathlib.Analysis.Real.Pi.Bounds
import Mathlib.Tactic.FieldSimp
import Mathlib.Tactic.LinearCombination

/-!
# Polsby-Popper scores and their norms (C88)
-/

set_option linter.unusedSectionVars false
set_option autoImplicit false

namespace GC

variable {V P : Type} [LinearOrder V] [DecidableEq P]

/-- Polsby-Popper score of a district with area `a` and perimeter `l`; NaN without perimeter -/
noncomputable def ppScore (a l : ℚ) : Option ℝ := if l = 0 then none else some (4 * Real.pi * a / (l : ℝ) ^ 2)

/-- perimeter of the district `part` with nodes `s`: outer boundary of its boundary nodes and length of its cut edges -/
def districtPerim (D : GraphData V) (m : Dict V P) (part : P) (s : Finset V) : ℚ :=
  ∑ n ∈ s.filter (fun n => D.boundaryNode n), D.boundaryPerim n + ∑ e ∈ cutsTouching D.graph m part, D.sharedPerim e

theorem moved_mem_nodes {F : Frame V P} (hF : FrameInv F) {p : ℕ} {n : V} (h : F.moved p n) : n ∈ F.data.graph.nodes := by
  obtain ⟨i, -, o, ho, fl, hfl, hn⟩ := h
  obtain ⟨w, hw⟩ := hF.exists_view (List.getElem?_eq_some_iff.1 ho).1
  have hfl' : w.flips = some fl := by
    unfold Frame.view at hw
    rw [ho] at hw
    rcases h1 : F.partsCells[o.partsRef]? with _ | a <;> simp only [h1, bind, Option.bind, reduceCtorEq] at hw
    rcases h2 : F.mapCells[o.mapRef]? with _ | b <;> simp only [h2, pure, reduceCtorEq, Option.some.injEq] at hw
    subst hw
    exact hfl
  obtain ⟨r, hr⟩ := Dict.mem_keys_iff.1 hn
  exact (hF.covers i w hw n).1 (Dict.mem_keys_iff.2 ⟨r, (hF.flips i w fl hw hfl').2 n r hr⟩)

theorem area_entry {F : Frame V P} (hF : FrameInv F) {p : ℕ} {v : View V P} (hv : F.view p = some v) {q : V → ℚ}
    (hq : ∀ n ∈ F.data.graph.nodes, F.data.col "area" n = ((q n : ℚ) : Num)) {d : Dict P Num}
    (ht : TallyOK (tallyFromNode F.data ["area"]) (F.moved p) v.assignment d) {part : P} {s : Finset V}
    (hs : v.assignment.parts.get? part = some s) :
    (∀ x, d.get? part = some x → x = ((∑ n ∈ s, q n : ℚ) : Num)) ∧ (s.Nonempty → part ∈ d.keys) := by
  have hval : ∀ n ∈ F.data.graph.nodes, tallyFromNode F.data ["area"] n = ((q n : ℚ) : Num) := by
    intro n hn
    unfold tallyFromNode
    simp [hq n hn]
  have hsub : s ⊆ F.data.graph.nodes := by
    intro c hc
    exact (hF.covers p v hv c).1 (Dict.mem_keys_iff.2 ⟨part, ((hF.coherent p v hv).agree part s hs c).1 hc⟩)
  obtain ⟨h1, h2, -⟩ := ht (fun n hn => by rw [hval n (moved_mem_nodes hF hn)]; exact WithBot.coe_ne_bot)
  constructor
  · intro x hx
    rw [h1 part x hx, get?_partOf hs]
    congr 1
    unfold sumSkipNaN
    apply Finset.sum_congr rfl
    intro n hn
    rw [hval n (hsub hn)]; rfl
  · rintro ⟨n, hn⟩
    exact h2 part n (by rw [get?_partOf hs]; exact hn) (by rw [hval n (hsub hn)]; exact WithBot.coe_ne_bot)

theorem polsbyPopperParts_sat {F : Frame V P} (hF : FrameInv F) {p : ℕ} {v : View V P} (hv : F.view p = some v) (limit : ℕ)
    {q : V → ℚ} (hq : ∀ n ∈ F.data.graph.nodes, F.data.col "area" n = ((q n : ℚ) : Num)) (l : List (P × Finset V))
    (hl : ∀ e ∈ l, v.assignment.parts.get? e.1 = some e.2) :
    M.Sat (CacheInv F) (polsbyPopperParts F limit p (l.map (·.1)))
      (fun r c => CacheInv F c ∧ r = l.map (fun e => (e.1, ppScore (∑ n ∈ e.2, q n) (districtPerim F.data v.assignment.mapping e.1 e.2))))
      (fun _ c => CacheInv F c ∧ ¬ (Safe F limit (.tally ["area"]) p ∧ Safe F limit .perimeter p ∧ ∀ e ∈ l, e.2.Nonempty)) := by
  induction l with
  | nil => exact M.Sat.pure (fun c hc => ⟨hc, rfl⟩)
  | cons e l ih =>
    have he := hl e List.mem_cons_self
    obtain ⟨good, hgood⟩ : ∃ good : Prop, good = (Safe F limit (.tally ["area"]) p ∧ Safe F limit .perimeter p ∧
      ∀ e' ∈ e :: l, e'.2.Nonempty) := ⟨_, rfl⟩
    rw [← hgood]
    have call : ∀ k, (good → Safe F limit k p) → M.Sat (CacheInv F) (getitem F limit k p)
        (fun x c => CacheInv F c ∧ Correct F.data (F.moved p) v.assignment k x) (fun _ c => CacheInv F c ∧ ¬ good) := by
      intro k hk
      refine M.Sat.conseq (getitem_sat hF limit k p) (fun _ h => h) ?_ (fun _ _ h => ⟨h.1, fun h' => h.2 (hk h')⟩)
      rintro x c ⟨hc, w, hw, hx⟩
      rw [hv] at hw; cases hw
      exact ⟨hc, hx⟩
    have ih' := M.Sat.conseq (ih (fun e' he' => hl e' (List.mem_cons_of_mem _ he'))) (fun _ h => h) (fun _ _ h => h)
      (E' := fun _ c => CacheInv F c ∧ ¬ good)
      (fun _ _ h => ⟨h.1, fun h' => h.2 (by rw [hgood] at h'; exact ⟨h'.1, h'.2.1, fun e' he' => h'.2.2 e' (List.mem_cons_of_mem _ he')⟩)⟩)
    rw [List.map_cons, List.map_cons, polsbyPopperParts]
    refine M.Sat.bindI (call (.tally ["area"]) (fun h => by rw [hgood] at h; exact h.1)) ?_
    intro x hx
    obtain ⟨d, rfl, hd⟩ := hx.tally
    obtain ⟨a1, a2⟩ := area_entry hF hv hq hd he
    refine M.Sat.bind_ok rfl ?_
    rcases hg : d.get? e.1 with _ | a
    · refine M.Sat.bind_error (Dict.get_eq_error_iff.2 ⟨hg, rfl⟩) (fun c hc => ⟨hc, fun h => ?_⟩)
      rw [hgood] at h
      have := a2 (h.2.2 e List.mem_cons_self)
      exact absurd this (Dict.get?_eq_none_iff.1 hg)
    refine M.Sat.bind_ok (Dict.get_eq_ok_iff.2 hg) ?_
    refine M.Sat.bindI (call .perimeter (fun h => by rw [hgood] at h; exact h.2.1)) ?_
    intro y hy
    obtain ⟨dp, rfl, hdp⟩ := hy.perimeter
    refine M.Sat.bind_ok rfl (M.Sat.bind_ok (Dict.get_eq_ok_iff.2 (hdp e.1 (Dict.mem_keys_iff.2 ⟨_, he⟩))) ?_)
    refine M.Sat.bindI ih' ?_
    rintro r rfl
    refine M.Sat.pure (fun c hc => ⟨hc, ?_⟩)
    rw [a1 a hg, get?_partOf he]
    rfl

variable {D : GraphData V} {ups : List Key} {ops : List (Op V P)}

/-- **C88 (exactness).** In every history, for a graph whose nodes all have a number as area: the scores returned by `polsby_popper` are, for every
district in the order of `partition.parts`, 4π · area / perimeter² of that district as it is now (NaN if the perimeter is 0).  It returns if the
updaters it needs are registered and neither the partition nor an ancestor has an empty district. -/
theorem C88_polsby_popper (hD : D.graph.WF) (hops : ∀ op ∈ ops, op.WF) {p : ℕ} {v : View V P}
    (hv : (Heap.after D ups ops).frame.view p = some v) (limit : ℕ) (q : V → ℚ)
    (hq : ∀ n ∈ D.graph.nodes, D.col "area" n = ((q n : ℚ) : Num)) :
    (∀ d, (polsbyPopper (Heap.after D ups ops).frame limit p (Heap.after D ups ops).caches).1 = .ok d →
      d.entries = v.assignment.parts.entries.map (fun e => (e.1, ppScore (∑ n ∈ e.2, q n) (districtPerim D v.assignment.mapping e.1 e.2)))) ∧
    ((∀ k ∈ [Key.tally ["area"], .perimeter, .extBoundary, .intBoundary, .boundaryNodes, .cutEdges, .cutEdgesByPart], k ∈ ups) →
      (Heap.after D ups ops).frame.Shallow (limit - 2) p →
      (∀ i w part s, i = p ∨ (Heap.after D ups ops).frame.Ancestor p i → (Heap.after D ups ops).frame.view i = some w →
        w.assignment.parts.get? part = some s → s.Nonempty) →
      ∃ d, (polsbyPopper (Heap.after D ups ops).frame limit p (Heap.after D ups ops).caches).1 = .ok d) := by
  obtain ⟨hi, hd, hu⟩ := after_inv (P := P) (ups := ups) hD hops
  have hwf := (hi.frame.coherent p v hv).parts_wf
  have hent : ∀ e ∈ v.assignment.parts.entries, v.assignment.parts.get? e.1 = some e.2 :=
    fun e he => Dict.get?_of_mem_entries hwf he
  have hsat := polsbyPopperParts_sat hi.frame hv limit (q := q) (by rw [hd]; exact hq) v.assignment.parts.entries hent _ hi.caches
  have hk : v.assignment.parts.keys = v.assignment.parts.entries.map (·.1) := rfl
  have hb : polsbyPopper (Heap.after D ups ops).frame limit p (Heap.after D ups ops).caches =
      match polsbyPopperParts (Heap.after D ups ops).frame limit p (v.assignment.parts.entries.map (·.1)) (Heap.after D ups ops).caches with
      | (.ok r, c) => (.ok ⟨r⟩, c)
      | (.error e, c) => (.error e, c) := by
    unfold polsbyPopper
    rw [hv]
    show M.bind (polsbyPopperParts _ limit p v.assignment.parts.keys) _ _ = _
    rw [hk]
    unfold M.bind
    generalize polsbyPopperParts (Heap.after D ups ops).frame limit p (v.assignment.parts.entries.map (·.1)) (Heap.after D ups ops).caches = out
    rcases out with ⟨e | r, c⟩ <;> rfl
  rw [hd] at hsat
  rw [hb]
  revert hsat
  generalize polsbyPopperParts (Heap.after D ups ops).frame limit p (v.assignment.parts.entries.map (·.1)) (Heap.after D ups ops).caches = out
  intro hsat
  constructor
  · intro d
    rcases out with ⟨e | r, c⟩
    · intro h; cases h
    · obtain ⟨-, rfl⟩ := hsat
      intro h
      cases h
      rfl
  · intro hups hlim hne
    rcases out with ⟨e | r, c⟩
    · obtain ⟨-, hn⟩ := hsat
      exfalso
      apply hn
      have hup : ∀ k ∈ [Key.tally ["area"], .perimeter, .extBoundary, .intBoundary, .boundaryNodes, .cutEdges, .cutEdgesByPart],
          k ∈ (Heap.after D ups ops).frame.updaters := by rw [hu]; exact hups
      have hobj := Frame.lt_of_view hv
      have hval : ∀ n ∈ D.graph.nodes, tallyFromNode D ["area"] n = ((q n : ℚ) : Num) := by
        intro n hn
        unfold tallyFromNode
        simp [hq n hn]
      refine ⟨⟨hobj, hup _ (by simp), ⟨limit, hlim.mono (by omega), le_rfl⟩, ?_⟩, ⟨hobj, hup _ (by simp), hlim.safe, ?_⟩, ?_⟩
      · show TallySafe _ _ _
        rw [hd]
        refine ⟨fun n hn => ?_, fun i hanc w hw part hpart => ?_⟩
        · rw [hval n (hd ▸ moved_mem_nodes hi.frame hn)]; exact WithBot.coe_ne_bot
        · obtain ⟨s, hs⟩ := Dict.mem_keys_iff.1 hpart
          obtain ⟨n, hn⟩ := hne i w part s (.inr hanc) hw hs
          have hcov := hi.frame.covers i w hw n
          rw [hd] at hcov
          exact ⟨n, by rw [get?_partOf hs]; exact hn, by
            rw [hval n (hcov.1 (Dict.mem_keys_iff.2 ⟨part, ((hi.frame.coherent i w hw).agree part s hs n).1 hn⟩))]; exact WithBot.coe_ne_bot⟩
      · exact ⟨hup _ (by simp), hup _ (by simp), hup _ (by simp), hup _ (by simp), hup _ (by simp)⟩
      · exact fun e he => hne p v e.1 e.2 (.inl rfl) hv (hent e he)
    · exact ⟨_, rfl⟩

/-- **C88 (polygons).** For the graph that `from_geodataframe` makes of polygons that tessellate their union (and a table without the columns it
computes), the score of every district is 4π · (total area of its polygons) / (length of its outline)². -/
theorem C88_polygons (geo projected : Geometries V) (df : DataFrame V AttrVal) (adjacency : String) (cols : Option (List String))
    (reproject ignoreErrors : Bool) (outer : V → ℚ)
    (h : (if reproject then projected else geo).Sound) (ht : (if reproject then projected else geo).Tessellates outer)
    (hcol : "boundary_node" ∉ df.columns ∧ "boundary_perim" ∉ df.columns ∧ "area" ∉ df.columns) (g : GeoGraph V)
    (hg : fromGeodataframe geo projected df adjacency cols reproject ignoreErrors = .ok g)
    (ups : List Key) (ops : List (Op V P)) (hops : ∀ op ∈ ops, op.WF) (p : ℕ) (v : View V P)
    (hv : (Heap.after g.data ups ops).frame.view p = some v) (limit : ℕ) (d : Dict P (Option ℝ))
    (hd : (polsbyPopper (Heap.after g.data ups ops).frame limit p (Heap.after g.data ups ops).caches).1 = .ok d) :
    d.entries = v.assignment.parts.entries.map (fun e => (e.1, ppScore (∑ n ∈ e.2, (if reproject then projected else geo).area n)
      (outline (if reproject then projected else geo) outer e.2))) := by
  obtain ⟨hwf, hs⟩ := geo_perimeter_sum h ht hcol hg hops hv
  have hat := C86_attributes_partial geo projected df adjacency cols reproject ignoreErrors outer h ht hcol g hg
  obtain ⟨adj, ha, hgr, hsh, -⟩ := fromGeodataframe_ok hg
  have hnodes : g.data.graph.nodes = (if reproject then projected else geo).ids := by
    show g.graph.nodes = _; rw [hgr]; exact (geoGraph_spec h ha).2.1
  obtain ⟨hi, -, -⟩ := after_inv (P := P) (ups := ups) hwf hops
  rw [(C88_polsby_popper hwf hops hv limit (if reproject then projected else geo).area ?_).1 d hd]
  · apply List.map_congr_left
    intro e he
    rw [show districtPerim g.data v.assignment.mapping e.1 e.2 = _ from
      (hs e.1 e.2 (Dict.get?_of_mem_entries (hi.frame.coherent p v hv).parts_wf he)).2.2]
  · intro n hn
    rw [hnodes] at hn
    unfold GeoGraph.data
    simp only [(hat n hn).1]
    rfl

/-! ### Grids -/

/-- a set of unit squares in `r` rows and `c` columns has at most `r c` squares and perimeter at least `2 r + 2 c` -/
theorem geomPerimeter_sq (s : Finset Cell) : 16 * s.card ≤ geomPerimeter s ^ 2 := by
  have h1 : s.card ≤ (s.image Cell.x).card * (s.image Cell.y).card := by
    rw [← Finset.card_product]
    refine Finset.card_le_card_of_injOn (fun c => (c.x, c.y)) ?_ ?_
    · intro c hc
      simp only [Finset.coe_product, Set.mem_prod, Finset.mem_coe, Finset.mem_image]
      exact ⟨⟨c, hc, rfl⟩, ⟨c, hc, rfl⟩⟩
    · intro c _ d _ hcd
      simp only [Prod.mk.injEq] at hcd
      rw [← cell_eta c, ← cell_eta d, hcd.1, hcd.2]
  have key : ∀ (k k' : Cell → ℕ) (Q : Cell → Prop) [DecidablePred Q], (∀ c ∈ s, (∀ d ∈ s, k d = k c → k' c ≤ k' d) → Q c) →
      (s.image k).card ≤ ∑ c ∈ s, if Q c then 1 else 0 := by
    intro k k' Q _ h
    rw [← Finset.card_filter]
    refine le_trans (Finset.card_le_card ?_) (Finset.card_image_le (f := k))
    intro y hy
    obtain ⟨c, hc, rfl⟩ := Finset.mem_image.1 hy
    obtain ⟨m, hm, hmin⟩ := Finset.exists_min_image (s.filter (fun d => k d = k c)) k' ⟨c, by simp [hc]⟩
    rw [Finset.mem_filter] at hm
    refine Finset.mem_image.2 ⟨m, Finset.mem_filter.2 ⟨hm.1, h m hm.1 (fun d hd hdm => hmin d (by simp [hd, hdm, hm.2]))⟩, hm.2⟩
  obtain ⟨bx, hbx⟩ : ∃ b, ∀ c ∈ s, c.x ≤ b := ⟨(s.image Cell.x).sup id, fun c hc => Finset.le_sup (f := id) (Finset.mem_image_of_mem _ hc)⟩
  obtain ⟨by', hby⟩ : ∃ b, ∀ c ∈ s, c.y ≤ b := ⟨(s.image Cell.y).sup id, fun c hc => Finset.le_sup (f := id) (Finset.mem_image_of_mem _ hc)⟩
  have a1 := key Cell.y Cell.x (fun c => c.x = 0 ∨ cell (c.x - 1) c.y ∉ s) (by
    intro c hc h
    by_contra hn
    push Not at hn
    have := h _ hn.2 (by simp)
    simp only [cell_x] at this
    omega)
  have a2 := key Cell.y (fun c => bx - c.x) (fun c => cell (c.x + 1) c.y ∉ s) (by
    intro c hc h hn
    have := h _ hn (by simp)
    have := hbx _ hn
    simp only [cell_x] at *
    omega)
  have a3 := key Cell.x Cell.y (fun c => c.y = 0 ∨ cell c.x (c.y - 1) ∉ s) (by
    intro c hc h
    by_contra hn
    push Not at hn
    have := h _ hn.2 (by simp)
    simp only [cell_y] at this
    omega)
  have a4 := key Cell.x (fun c => by' - c.y) (fun c => cell c.x (c.y + 1) ∉ s) (by
    intro c hc h hn
    have := h _ hn (by simp)
    have := hby _ hn
    simp only [cell_y] at *
    omega)
  have hsum : geomPerimeter s = (∑ c ∈ s, if c.x = 0 ∨ cell (c.x - 1) c.y ∉ s then 1 else 0) + (∑ c ∈ s, if cell (c.x + 1) c.y ∉ s then 1 else 0) +
      (∑ c ∈ s, if c.y = 0 ∨ cell c.x (c.y - 1) ∉ s then 1 else 0) + ∑ c ∈ s, if cell c.x (c.y + 1) ∉ s then 1 else 0 := by
    unfold geomPerimeter openSides
    rw [Finset.sum_add_distrib, Finset.sum_add_distrib, Finset.sum_add_distrib]
  set r := (s.image Cell.x).card
  set c := (s.image Cell.y).card
  have hle : 2 * (r + c) ≤ geomPerimeter s := by rw [hsum]; omega
  calc 16 * s.card ≤ 16 * (r * c) := by omega
    _ ≤ (2 * (r + c)) ^ 2 := by nlinarith [four_mul_le_sq_add r c]
    _ ≤ geomPerimeter s ^ 2 := Nat.pow_le_pow_left hle 2

/-- **C88 (grids).** On a grid with at least two rows and columns, in every history, the score of a nonempty district with `k` cells is
4π · k / (its number of open sides)², is positive and at most π/4 (the score of a square). -/
theorem C88_grid (m n : ℕ) (hm : 2 ≤ m) (hn : 2 ≤ n) (diagonals : Bool) (ups : List Key)
    (ops : List (Op Cell P)) (hops : ∀ op ∈ ops, op.WF) (p : ℕ) (v : View Cell P)
    (hv : (Heap.after (gridData m n diagonals) ups ops).frame.view p = some v) (limit : ℕ) (d : Dict P (Option ℝ))
    (hd : (polsbyPopper (Heap.after (gridData m n diagonals) ups ops).frame limit p (Heap.after (gridData m n diagonals) ups ops).caches).1 = .ok d)
    (part : P) (s : Finset Cell) (hs : v.assignment.parts.get? part = some s) (hne : s.Nonempty) :
    ∃ x, (part, some x) ∈ d.entries ∧ x = 4 * Real.pi * s.card / (geomPerimeter s : ℝ) ^ 2 ∧ 0 < x ∧ x ≤ Real.pi / 4 := by
  have hwf : (gridData m n diagonals).graph.WF := gridGraph_wf m n diagonals
  have hent := (C88_polsby_popper hwf hops hv limit (fun _ => 1) (fun n hn => by
    simp [gridData])).1 d hd
  have hsq := geomPerimeter_sq s
  have hcard : 0 < s.card := Finset.card_pos.2 hne
  have hpos : 0 < geomPerimeter s := by
    rcases Nat.eq_zero_or_pos (geomPerimeter s) with h0 | h0
    · rw [h0] at hsq; omega
    · exact h0
  have hposR : (0 : ℝ) < geomPerimeter s := by exact_mod_cast hpos
  have hsqR : 16 * (s.card : ℝ) ≤ (geomPerimeter s : ℝ) ^ 2 := by exact_mod_cast hsq
  refine ⟨_, ?_, rfl, ?_, ?_⟩
  · rw [hent]
    refine List.mem_map.2 ⟨(part, s), (Dict.mem_entries_iff ((after_inv (P := P) (ups := ups) hwf hops).1.frame.coherent p v hv).parts_wf).2 hs, ?_⟩
    simp only [Prod.mk.injEq, true_and]
    rw [show districtPerim (gridData m n diagonals) v.assignment.mapping part s = _ from grid_perimeter_sum hm hn hops hv hs]
    unfold ppScore
    rw [if_neg (by exact_mod_cast hpos.ne')]
    simp
  · have := Real.pi_pos
    positivity
  · rw [div_le_div_iff₀ (by positivity) (by norm_num)]
    nlinarith [Real.pi_pos]

/-- updaters of a `GeographicPartition` -/
def geoUps : List Key := [.perimeter, .extBoundary, .intBoundary, .boundaryNodes, .cutEdges, .tally ["area"], .cutEdgesByPart]

/-- **C88** fails on a grid with one row: the single district of `Grid((1, 2))` gets the score π/2, which is more than that of a disc. -/
theorem C88_one_row_violation :
    (∃ d, (polsbyPopper (Heap.after (gridData 1 2 false) geoUps [Op.create (⟨[(cell 0 0, 7), (cell 0 1, 7)]⟩ : Dict Cell ℕ)]).frame 9 0
      (Heap.after (gridData 1 2 false) geoUps [Op.create (⟨[(cell 0 0, 7), (cell 0 1, 7)]⟩ : Dict Cell ℕ)]).caches).1 = .ok d ∧
      d.entries = [(7, some (Real.pi / 2))]) ∧ 1 < Real.pi / 2 := by
  refine ⟨?_, by linarith [Real.pi_gt_three]⟩
  have hwf : (gridData 1 2 false).graph.WF := gridGraph_wf 1 2 false
  have hops : ∀ op ∈ [Op.create (⟨[(cell 0 0, 7), (cell 0 1, 7)]⟩ : Dict Cell ℕ)], op.WF := by
    intro op hop
    rw [List.mem_singleton.1 hop]
    show Dict.WF _
    unfold Dict.WF; decide
  obtain ⟨hi, -, -⟩ := after_inv (P := ℕ) (ups := geoUps) hwf hops
  obtain ⟨v, hv, hparts, hmap⟩ : ∃ v, (Heap.after (gridData 1 2 false) geoUps [Op.create (⟨[(cell 0 0, 7), (cell 0 1, 7)]⟩ : Dict Cell ℕ)]).frame.view 0 =
      some v ∧ v.assignment.parts.entries = [(7, {cell 0 0, cell 0 1})] ∧ v.assignment.mapping = ⟨[(cell 0 0, 7), (cell 0 1, 7)]⟩ :=
    ⟨_, rfl, by decide +kernel, by decide +kernel⟩
  obtain ⟨h1, h2⟩ := C88_polsby_popper hwf hops hv 9 (fun _ => 1) (fun n hn => by simp [gridData])
  obtain ⟨d, hd⟩ := h2 (by decide) (shallow_after hwf hops (by norm_num)) (by
    intro i w part s _ hw hs
    have hlen := Frame.lt_of_view hw
    have hi0 : i = 0 := by
      have : (Heap.after (gridData 1 2 false) geoUps [Op.create (⟨[(cell 0 0, 7), (cell 0 1, 7)]⟩ : Dict Cell ℕ)]).frame.objs.length = 1 := by rfl
      omega
    subst hi0
    rw [hv] at hw
    cases hw
    have := (Dict.mem_entries_iff (hi.frame.coherent 0 v hv).parts_wf).2 hs
    rw [hparts, List.mem_singleton] at this
    cases this
    exact ⟨cell 0 0, by decide +kernel⟩)
  refine ⟨d, hd, ?_⟩
  rw [h1 d hd, hparts, hmap]
  have h : districtPerim (gridData 1 2 false) (⟨[(cell 0 0, 7), (cell 0 1, 7)]⟩ : Dict Cell ℕ) 7 {cell 0 0, cell 0 1} = 4 := by decide +kernel
  have h' : ({cell 0 0, cell 0 1} : Finset Cell).card = 2 := by decide +kernel
  simp only [List.map_cons, List.map_nil, h, Finset.sum_const, h']
  unfold ppScore
  rw [if_neg (by norm_num)]
  norm_num
  ring

/-- the default plan of `Grid((2, 2))` meets the hypotheses of `C88_grid` and of `C88_polsby_popper`: the scores are computed and one is π/4 -/
example : ∃ d, (polsbyPopper (Heap.after (gridData 2 2 false) geoUps [Op.create (gridAssignment 2 2)]).frame 9 0
      (Heap.after (gridData 2 2 false) geoUps [Op.create (gridAssignment 2 2)]).caches).1 = .ok d ∧ (3, some (Real.pi / 4)) ∈ d.entries := by
  have hwf : (gridData 2 2 false).graph.WF := gridGraph_wf 2 2 false
  have hops : ∀ op ∈ [Op.create (gridAssignment 2 2)], op.WF := by
    intro op hop
    rw [List.mem_singleton.1 hop]
    show Dict.WF _
    unfold Dict.WF; decide +kernel
  obtain ⟨hi, -, -⟩ := after_inv (P := ℕ) (ups := geoUps) hwf hops
  obtain ⟨v, hv, hfl, hs⟩ : ∃ v, (Heap.after (gridData 2 2 false) geoUps [Op.create (gridAssignment 2 2)]).frame.view 0 = some v ∧ v.flips = none ∧
      v.assignment.parts.get? 3 = some {cell 1 1} := ⟨_, rfl, rfl, by decide +kernel⟩
  obtain ⟨d, hd⟩ := (C88_polsby_popper hwf hops hv 9 (fun _ => 1) (fun n hn => by simp [gridData])).2 (by decide) (shallow_after hwf hops (by norm_num)) (by
    intro i w part s _ hw hs
    have hlen := Frame.lt_of_view hw
    have hi0 : i = 0 := by
      have : (Heap.after (gridData 2 2 false) geoUps [Op.create (gridAssignment 2 2)]).frame.objs.length = 1 := by rfl
      omega
    subst hi0
    rw [hv] at hw
    cases hw
    exact (hi.frame.fresh 0 v hv hfl).2 part s hs)
  refine ⟨d, hd, ?_⟩
  obtain ⟨x, hx, rfl, -⟩ := C88_grid 2 2 le_rfl le_rfl false geoUps _ hops 0 v hv 9 d hd 3 _ hs (by decide)
  have h1 : ({cell 1 1} : Finset Cell).card = 1 := by decide
  have h2 : geomPerimeter {cell 1 1} = 4 := by decide +kernel
  rw [h1, h2] at hx
  convert hx using 3
  push_cast
  ring

/-! ### Norms of the scores -/

theorem foldl_nanAdd (xs : List ℝ) (a : ℝ) : (xs.map some).foldl nanAdd (some a) = some (a + xs.sum) := by
  induction xs generalizing a with
  | nil => simp
  | cons x xs ih =>
    rw [List.map_cons, List.foldl_cons, List.sum_cons, ← add_assoc]
    exact ih (a + x)

theorem foldl_nanAdd_none (l : List (Option ℝ)) : l.foldl nanAdd none = none := by
  induction l with
  | nil => rfl
  | cons x l ih => rw [List.foldl_cons]; exact ih

theorem sumReciprocals_cases (l : List (Option ℝ)) :
    (some 0 ∈ l → sumReciprocals l = .error .zeroDivision) ∧
    (some 0 ∉ l → none ∈ l → sumReciprocals l = .ok none) ∧
    ∀ xs : List ℝ, l = xs.map some → (0 : ℝ) ∉ xs → sumReciprocals l = .ok (some (xs.map (fun x => 1 / x)).sum) := by
  unfold sumReciprocals
  have key : ∀ (l : List (Option ℝ)) (a : Option ℝ),
      (some 0 ∈ l → l.foldlM (fun acc value => do let r ← nanDiv (some 1) value; return nanAdd acc r) a = (.error .zeroDivision : Py (Option ℝ))) ∧
      (some 0 ∉ l → (a = none ∨ none ∈ l) →
        l.foldlM (fun acc value => do let r ← nanDiv (some 1) value; return nanAdd acc r) a = (.ok none : Py (Option ℝ))) ∧
      ∀ (xs : List ℝ) (b : ℝ), l = xs.map some → (0 : ℝ) ∉ xs → a = some b →
        l.foldlM (fun acc value => do let r ← nanDiv (some 1) value; return nanAdd acc r) a =
          (.ok (some (b + (xs.map (fun x => 1 / x)).sum)) : Py (Option ℝ)) := by
    intro l
    induction l with
    | nil =>
      intro a
      refine ⟨by simp, ?_, ?_⟩
      · rintro - (rfl | h)
        · rfl
        · simp at h
      · rintro xs b h - rfl
        rcases xs with _ | ⟨x, xs⟩
        · simp
        · simp at h
    | cons y l ih =>
      intro a
      rw [List.foldlM_cons]
      by_cases hy : y = some 0
      · subst hy
        have : nanDiv (some 1) (some 0) = .error .zeroDivision := by unfold nanDiv; rw [if_pos rfl]
        rw [this]
        refine ⟨fun _ => rfl, fun h => absurd List.mem_cons_self h, ?_⟩
        intro xs b h h0 _
        exfalso
        rcases xs with _ | ⟨x, xs⟩
        · simp at h
        · simp only [List.map_cons, List.cons.injEq, Option.some.injEq] at h
          rw [← h.1] at h0
          simp at h0
      · have hdiv : nanDiv (some 1) y = .ok (y.map (fun x => 1 / x)) := by
          unfold nanDiv
          rw [if_neg hy]
          rcases y with _ | y <;> rfl
        rw [hdiv]
        obtain ⟨i1, i2, i3⟩ := ih (nanAdd a (y.map (fun x => 1 / x)))
        refine ⟨?_, ?_, ?_⟩
        · intro h
          rcases List.mem_cons.1 h with h | h
          · exact absurd h.symm hy
          · exact i1 h
        · intro h hn
          refine i2 (fun h' => h (List.mem_cons_of_mem _ h')) ?_
          rcases hn with rfl | hn
          · exact .inl rfl
          · rcases List.mem_cons.1 hn with rfl | hn
            · left; cases a <;> rfl
            · exact .inr hn
        · rintro xs b h h0 rfl
          rcases xs with _ | ⟨x, xs⟩
          · simp at h
          · simp only [List.map_cons, List.cons.injEq] at h
            obtain ⟨rfl, rfl⟩ := h
            rw [List.map_cons, List.sum_cons, ← add_assoc]
            exact i3 xs (b + 1 / x) rfl (fun h' => h0 (List.mem_cons_of_mem _ h')) rfl
  obtain ⟨k1, k2, k3⟩ := key l (some 0)
  refine ⟨k1, fun h hn => k2 h (.inr hn), fun xs h h0 => ?_⟩
  rw [k3 xs 0 h h0 rfl, zero_add]

/-- AM-HM for lists -/
theorem sum_mul_sum_inv (xs : List ℝ) (hx : ∀ x ∈ xs, 0 < x) :
    (xs.length : ℝ) ^ 2 ≤ xs.sum * (xs.map (fun x => 1 / x)).sum := by
  have key : ∀ (l : List ℝ) (t : ℝ), 0 < t → (∀ x ∈ l, 0 < x) → 2 * (l.length : ℝ) ≤ l.sum / t + t * (l.map (fun x => 1 / x)).sum := by
    intro l t ht
    induction l with
    | nil => intro _; simp
    | cons x l ih =>
      intro h
      have h1 := ih (fun y hy => h y (List.mem_cons_of_mem _ hy))
      have hx := h x List.mem_cons_self
      have h2 : 2 ≤ x / t + t * (1 / x) := by
        rw [← sub_nonneg]
        have : x / t + t * (1 / x) - 2 = (x - t) ^ 2 / (x * t) := by field_simp; ring
        rw [this]
        positivity
      simp only [List.length_cons, List.sum_cons, List.map_cons, Nat.cast_add, Nat.cast_one, add_div, mul_add]
      linarith
  rcases xs with _ | ⟨x, l⟩
  · simp
  · set n : ℝ := ((x :: l).length : ℝ) with hn
    have hn0 : 0 < n := by rw [hn]; simp; positivity
    have hs : 0 < (x :: l).sum := by
      rw [List.sum_cons]
      have : 0 ≤ l.sum := List.sum_nonneg (fun y hy => (hx y (List.mem_cons_of_mem _ hy)).le)
      have := hx x List.mem_cons_self
      linarith
    have h := key (x :: l) ((x :: l).sum / n) (by positivity) hx
    set A := (x :: l).sum
    set B := ((x :: l).map (fun x => 1 / x)).sum
    have h' : 2 * n ≤ n + A * B / n := by
      have e1 : A / (A / n) = n := by field_simp
      have e2 : A / n * B = A * B / n := by ring
      rw [e1, e2] at h
      exact h
    have : n ≤ A * B / n := by linarith
    rw [le_div_iff₀ hn0] at this
    nlinarith

theorem sum_sq_bounds (xs : List ℝ) (hx : ∀ x ∈ xs, 0 < x) :
    xs.sum ^ 2 ≤ xs.length * (xs.map (fun x => x ^ 2)).sum ∧ (xs.map (fun x => x ^ 2)).sum ≤ xs.sum ^ 2 := by
  have hvar : ∀ (l : List ℝ) (t : ℝ), 0 ≤ (l.map (fun x => x ^ 2)).sum - 2 * t * l.sum + l.length * t ^ 2 := by
    intro l t
    induction l with
    | nil => simp
    | cons x l ih =>
      simp only [List.map_cons, List.sum_cons, List.length_cons, Nat.cast_add, Nat.cast_one]
      nlinarith [sq_nonneg (x - t)]
  constructor
  · rcases xs with _ | ⟨x, l⟩
    · simp
    · set n : ℝ := ((x :: l).length : ℝ) with hn
      have hn0 : 0 < n := by rw [hn]; simp; positivity
      have h := hvar (x :: l) ((x :: l).sum / n)
      rw [← hn] at h
      set A := (x :: l).sum
      set Q := ((x :: l).map (fun x => x ^ 2)).sum
      have e : Q - 2 * (A / n) * A + n * (A / n) ^ 2 = (n * Q - A ^ 2) / n := by field_simp; ring
      rw [e] at h
      have := (div_nonneg_iff.1 h).resolve_right (fun h' => by linarith)
      linarith
  · induction xs with
    | nil => simp
    | cons x l ih =>
      have h1 := ih (fun y hy => hx y (List.mem_cons_of_mem _ hy))
      have h2 : 0 ≤ l.sum := List.sum_nonneg (fun y hy => (hx y (List.mem_cons_of_mem _ hy)).le)
      have := hx x List.mem_cons_self
      simp only [List.map_cons, List.sum_cons]
      nlinarith

/-- **C88 (norms).** For a plan with at least one district and positive scores, the four norms return numbers: `L1` is the sum `a`, `L2` the root `q` of
the sum of squares, `L1_reciprocal` the sum `r` of the reciprocals and `L_minus_1` their harmonic mean `h = n / r`.  So `h` lies between the smallest and
the largest score; harmonic mean ≤ arithmetic mean `a / n` ≤ quadratic mean; and `q ≤ a`.  The two constraints `no_worse_...` order plans
with the same number of districts alike: a plan has larger `h` exactly when it has smaller `r`. -/
theorem C88_norms (parts : Dict P (Finset V)) (scores : Dict P (Option ℝ)) (xs : List ℝ) (hs : scores.values = xs.map some)
    (hlen : parts.keys.length = xs.length) (hne : xs ≠ []) (hpos : ∀ x ∈ xs, 0 < x) :
    ∃ a q r h : ℝ, l1PP scores = some a ∧ l2PP scores = some q ∧ l1ReciprocalPP scores = .ok (some r) ∧
      lMinus1PP parts scores = .ok (some h) ∧
      a = xs.sum ∧ (0 ≤ q ∧ q ^ 2 = (xs.map (fun x => x ^ 2)).sum) ∧ r = (xs.map (fun x => x⁻¹)).sum ∧ 0 < r ∧ h = xs.length / r ∧
      (∀ lo, (∀ x ∈ xs, lo ≤ x) → lo ≤ h) ∧ (∀ hi, (∀ x ∈ xs, x ≤ hi) → h ≤ hi) ∧
      h ≤ a / xs.length ∧ (a / xs.length) ^ 2 ≤ q ^ 2 / xs.length ∧ q ≤ a := by
  have h0 : (0 : ℝ) ∉ xs := fun h => lt_irrefl _ (hpos 0 h)
  have hn0 : (0 : ℝ) < xs.length := by
    have := List.length_pos_iff.2 hne
    exact_mod_cast this
  have hr := (sumReciprocals_cases scores.values).2.2 xs hs h0
  have hinv : ∀ x ∈ xs.map (fun x => 1 / x), 0 < x := by
    intro y hy
    obtain ⟨x, hx, rfl⟩ := List.mem_map.1 hy
    exact one_div_pos.2 (hpos x hx)
  set r := (xs.map (fun x => 1 / x)).sum with hrdef
  have hrpos : 0 < r := List.sum_pos _ hinv (by simpa using hne)
  have hq0 : 0 ≤ (xs.map (fun x => x ^ 2)).sum := List.sum_nonneg (by
    intro y hy
    obtain ⟨x, -, rfl⟩ := List.mem_map.1 hy
    positivity)
  have hanm := sum_mul_sum_inv xs hpos
  obtain ⟨hq1, hq2⟩ := sum_sq_bounds xs hpos
  have ha0 : 0 ≤ xs.sum := List.sum_nonneg (fun x hx => (hpos x hx).le)
  have hh : xs.length / r ≤ xs.sum / xs.length := by
    rw [div_le_div_iff₀ hrpos hn0]
    nlinarith
  refine ⟨xs.sum, Real.sqrt (xs.map (fun x => x ^ 2)).sum, r, xs.length / r, ?_, ?_, hr, ?_, rfl, ⟨Real.sqrt_nonneg _, Real.sq_sqrt hq0⟩,
    ?_, hrpos, rfl, ?_, ?_, hh, ?_, ?_⟩
  · unfold l1PP
    rw [hs, foldl_nanAdd, zero_add]
  · unfold l2PP
    rw [hs, List.map_map]
    have : (Option.map (fun r : ℝ => r ^ 2)) ∘ some = some ∘ (fun x : ℝ => x ^ 2) := rfl
    rw [this, ← List.map_map, foldl_nanAdd, zero_add]
    rfl
  · unfold lMinus1PP
    rw [hr]
    simp only [bind, Except.bind]
    unfold nanDiv
    rw [if_neg (by simp [hrpos.ne']), hlen]
  · rw [hrdef]; simp [one_div]
  · intro lo hlo
    rw [le_div_iff₀ hrpos]
    have key : ∀ l : List ℝ, (∀ x ∈ l, 0 < x ∧ lo ≤ x) → lo * (l.map (fun x => 1 / x)).sum ≤ l.length := by
      intro l
      induction l with
      | nil => intro _; simp
      | cons x l ih =>
        intro h
        have h1 := ih (fun y hy => h y (List.mem_cons_of_mem _ hy))
        obtain ⟨h2, h3⟩ := h x List.mem_cons_self
        have h4 : lo * (1 / x) ≤ 1 := by rw [mul_one_div, div_le_one h2]; exact h3
        simp only [List.map_cons, List.sum_cons, List.length_cons, mul_add]
        push_cast
        linarith
    exact key xs (fun x hx => ⟨hpos x hx, hlo x hx⟩)
  · intro hi hhi
    refine hh.trans ?_
    rw [div_le_iff₀ hn0]
    have key : ∀ l : List ℝ, (∀ x ∈ l, x ≤ hi) → l.sum ≤ hi * l.length := by
      intro l
      induction l with
      | nil => intro _; simp
      | cons x l ih =>
        intro h
        have h1 := ih (fun y hy => h y (List.mem_cons_of_mem _ hy))
        have h2 := h x List.mem_cons_self
        simp only [List.sum_cons, List.length_cons]
        push_cast
        linarith
    exact key xs hhi
  · rw [Real.sq_sqrt hq0, div_pow, div_le_div_iff₀ (by positivity) hn0]
    nlinarith
  · rw [Real.sqrt_le_left ha0]
    exact hq2

/-- **C88 (exceptional scores).** A district with score 0 makes both norms of reciprocals raise `ZeroDivisionError`; otherwise a NaN score (a district
without perimeter) makes them NaN; `L_minus_1` raises `ZeroDivisionError` for a plan without districts. -/
theorem C88_exceptional (parts : Dict P (Finset V)) (scores : Dict P (Option ℝ)) :
    (some 0 ∈ scores.values → l1ReciprocalPP scores = .error .zeroDivision ∧ lMinus1PP parts scores = .error .zeroDivision) ∧
    (some 0 ∉ scores.values → none ∈ scores.values → l1ReciprocalPP scores = .ok none ∧ lMinus1PP parts scores = .ok none) ∧
    (none ∈ scores.values → l1PP scores = none ∧ l2PP scores = none) ∧
    (scores.values = [] → lMinus1PP parts scores = .error .zeroDivision) := by
  obtain ⟨k1, k2, k3⟩ := sumReciprocals_cases scores.values
  have hnone : ∀ (l : List (Option ℝ)) (a : Option ℝ), none ∈ l → l.foldl nanAdd a = none := by
    intro l
    induction l with
    | nil => intro a h; simp at h
    | cons y l ih =>
      intro a h
      rw [List.foldl_cons]
      rcases List.mem_cons.1 h with rfl | h
      · have : nanAdd a none = none := by cases a <;> rfl
        rw [this]
        exact foldl_nanAdd_none l
      · exact ih _ h
  refine ⟨fun h => ⟨k1 h, ?_⟩, fun h hn => ⟨k2 h hn, ?_⟩, fun hn => ⟨hnone _ _ hn, ?_⟩, fun h => ?_⟩
  · unfold lMinus1PP; rw [k1 h]; rfl
  · unfold lMinus1PP
    rw [k2 h hn]
    simp only [bind, Except.bind]
    unfold nanDiv
    rw [if_neg (by simp)]
  · unfold l2PP
    rw [hnone _ _ (List.mem_map.2 ⟨none, hn, rfl⟩)]
    rfl
  · unfold lMinus1PP
    rw [k3 [] h (by simp)]
    simp only [bind, Except.bind]
    unfold nanDiv
    rw [if_pos (by simp)]

/-- two districts with scores 1/2 and 1/4: harmonic mean 1/3 -/
example : lMinus1PP (⟨[(1, {0}), (2, {1})]⟩ : Dict ℕ (Finset (Fin 2))) ⟨[(1, some (1 / 2)), (2, some (1 / 4))]⟩ = .ok (some (1 / 3)) := by
  obtain ⟨a, q, r, h, -, -, -, h4, -, -, hr, -, hh, -⟩ := C88_norms (⟨[(1, {0}), (2, {1})]⟩ : Dict ℕ (Finset (Fin 2)))
    ⟨[(1, some (1 / 2)), (2, some (1 / 4))]⟩ [1 / 2, 1 / 4] rfl rfl (by simp) (by
      intro x hx
      simp only [List.mem_cons, List.not_mem_nil, or_false] at hx
      rcases hx with rfl | rfl <;> norm_num)
  rw [h4, hh, hr]
  norm_num

end GC

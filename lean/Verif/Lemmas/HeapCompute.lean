import Verif.Lemmas.Heap

/-!
# Each updater body maps right values to right values
-/

set_option linter.unusedSectionVars false
set_option autoImplicit false

namespace GC

variable {V P : Type} [LinearOrder V] [DecidableEq P]

/-- Specification of a lookup function used for recursive lookups. -/
def RecSpec (F : Frame V P) (limit : ℕ) (rec : Key → ℕ → M (Caches V P) (Val V P)) : Prop :=
  ∀ k q, M.Sat (CacheInv F) (rec k q)
    (fun x c => CacheInv F c ∧ ∃ v, F.view q = some v ∧ Correct F.data (F.moved q) v.assignment k x)
    (fun _ c => CacheInv F c ∧ ¬ Safe F limit k q)

/-- Goal for the body of updater `k`. -/
def BodySpec (F : Frame V P) (limit : ℕ) (rec : Key → ℕ → M (Caches V P) (Val V P)) (k : Key) (p : ℕ) : Prop :=
  ∀ v, F.view p = some v → M.Sat (CacheInv F) (compute F rec k p)
    (fun x c => CacheInv F c ∧ Correct F.data (F.moved p) v.assignment k x)
    (fun _ c => CacheInv F c ∧ ¬ Safe F (limit + 1) k p)

/-! ### election results -/

theorem election_sum_ok {parties : List (String × String)} {counts : Dict String (Dict P Num)} {region : P}
    (acc s : Num) (h : parties.foldlM (fun (acc : Num) pc => do
      let c ← counts.get pc.1
      let x ← c.get region
      return acc + x) acc = (.ok s : Py _)) :
    ∃ cs : List Num, List.Forall₂ (fun pc c => ∃ d, counts.get? pc.1 = some d ∧ d.get? region = some c) parties cs ∧
      s = acc + cs.sum := by
  induction parties generalizing acc with
  | nil =>
    simp only [List.foldlM_nil, Py.pure_eq_ok] at h
    exact ⟨[], List.Forall₂.nil, by simp [h]⟩
  | cons pc l ih =>
    rw [List.foldlM_cons, Py.bind_eq_ok] at h
    obtain ⟨acc1, h1, h⟩ := h
    rw [Py.bind_eq_ok] at h1
    obtain ⟨d, hd, h1⟩ := h1
    rw [Py.bind_eq_ok] at h1
    obtain ⟨x, hx, h1⟩ := h1
    rw [Py.pure_eq_ok] at h1
    subst h1
    obtain ⟨cs, i1, i2⟩ := ih _ h
    refine ⟨x :: cs, List.Forall₂.cons ⟨d, Dict.get_eq_ok_iff.1 hd, Dict.get_eq_ok_iff.1 hx⟩ i1, ?_⟩
    rw [i2, List.sum_cons, add_assoc]

theorem election_sum_error {parties : List (String × String)} {counts : Dict String (Dict P Num)} {region : P}
    (acc : Num) (e : PyErr) (h : parties.foldlM (fun (acc : Num) pc => do
      let c ← counts.get pc.1
      let x ← c.get region
      return acc + x) acc = (.error e : Py _)) :
    ∃ pc ∈ parties, ∀ d, counts.get? pc.1 = some d → region ∉ d.keys := by
  induction parties generalizing acc with
  | nil => simp at h
  | cons pc l ih =>
    rw [List.foldlM_cons, Py.bind_eq_error] at h
    rcases h with h | ⟨acc1, -, h⟩
    · refine ⟨pc, List.mem_cons_self, ?_⟩
      intro d hd
      rw [Py.bind_eq_error] at h
      rcases h with h | ⟨d', hd', h⟩
      · rw [(Dict.get_eq_error_iff.1 h).1] at hd; cases hd
      · rw [Dict.get_eq_ok_iff] at hd'
        rw [hd] at hd'; cases hd'
        rw [Py.bind_eq_error] at h
        rcases h with h | ⟨_, _, h⟩
        · exact Dict.get?_eq_none_iff.1 (Dict.get_eq_error_iff.1 h).1
        · simp at h
    · obtain ⟨pc', h1, h2⟩ := ih _ h
      exact ⟨pc', List.mem_cons_of_mem _ h1, h2⟩

theorem foldlM_setk_ok {K B : Type} [DecidableEq K] (f : K → Py B) (l : List K) (d d' : Dict K B)
    (h : l.foldlM (fun (t : Dict K B) e => do let y ← f e; return t.set e y) d = (.ok d' : Py _)) :
    (∀ e ∈ l, ∃ y, f e = .ok y ∧ d'.get? e = some y) ∧ (∀ k, k ∉ l → d'.get? k = d.get? k) := by
  induction l generalizing d with
  | nil => simp only [List.foldlM_nil, Py.pure_eq_ok] at h; subst h; simp
  | cons e l ih =>
    rw [List.foldlM_cons, Py.bind_eq_ok] at h
    obtain ⟨d1, h1, h⟩ := h
    rw [Py.bind_eq_ok] at h1
    obtain ⟨y, hy, h1⟩ := h1
    rw [Py.pure_eq_ok] at h1
    subst h1
    obtain ⟨i1, i2⟩ := ih _ h
    refine ⟨?_, ?_⟩
    · intro x hx
      by_cases hxl : x ∈ l
      · exact i1 x hxl
      · rcases List.mem_cons.1 hx with rfl | hx
        · exact ⟨y, hy, by rw [i2 _ hxl, Dict.get?_set_self]⟩
        · exact absurd hx hxl
    · intro k hk
      simp only [List.mem_cons, not_or] at hk
      rw [i2 k hk.2, Dict.get?_set_ne _ _ hk.1]

theorem foldlM_setk_keys {K B : Type} [DecidableEq K] (f : K → Py B) (l : List K) (d d' : Dict K B) (hl : l.Nodup)
    (hd : ∀ k ∈ l, k ∉ d.keys)
    (h : l.foldlM (fun (t : Dict K B) e => do let y ← f e; return t.set e y) d = (.ok d' : Py _)) :
    d'.keys = d.keys ++ l := by
  induction l generalizing d with
  | nil => simp only [List.foldlM_nil, Py.pure_eq_ok] at h; subst h; simp
  | cons e l ih =>
    rw [List.foldlM_cons, Py.bind_eq_ok] at h
    obtain ⟨d1, h1, h⟩ := h
    rw [Py.bind_eq_ok] at h1
    obtain ⟨y, hy, h1⟩ := h1
    rw [Py.pure_eq_ok] at h1
    subst h1
    rw [List.nodup_cons] at hl
    rw [ih _ hl.2 _ h, Dict.keys_set, if_neg (hd e List.mem_cons_self)]
    · simp
    · intro k hk
      rw [Dict.mem_keys_set, not_or]
      exact ⟨fun h => hl.1 (h ▸ hk), hd k (List.mem_cons_of_mem _ hk)⟩

theorem foldlM_setk_error {K B : Type} [DecidableEq K] (f : K → Py B) (l : List K) (d : Dict K B) (err : PyErr)
    (h : l.foldlM (fun (t : Dict K B) e => do let y ← f e; return t.set e y) d = (.error err : Py _)) :
    ∃ e ∈ l, f e = .error err := by
  induction l generalizing d with
  | nil => simp at h
  | cons e l ih =>
    rw [List.foldlM_cons, Py.bind_eq_error] at h
    rcases h with h | ⟨d1, h1, h⟩
    · rw [Py.bind_eq_error] at h
      rcases h with h | ⟨y, hy, h⟩
      · exact ⟨e, List.mem_cons_self, h⟩
      · simp at h
    · obtain ⟨x, hx, h⟩ := ih _ h
      exact ⟨x, List.mem_cons_of_mem _ hx, h⟩

theorem electionResults_ok {parties : List (String × String)} {counts : Dict String (Dict P Num)} {regions : List P}
    {r : ElectionVal P} (hreg : regions.Nodup) (h : electionResults parties counts regions = .ok r) :
    r.totalsForParty = counts ∧ r.regions = regions ∧ (∀ p ∈ regions, ∃ cs : List Num,
      List.Forall₂ (fun pc c => ∃ d, r.totalsForParty.get? pc.1 = some d ∧ d.get? p = some c) parties cs ∧
      r.totals.get? p = some cs.sum) ∧ r.totals.keys = regions := by
  unfold electionResults at h
  rw [Py.bind_eq_ok] at h
  obtain ⟨t, ht, h⟩ := h
  rw [Py.pure_eq_ok] at h
  subst h
  refine ⟨rfl, rfl, ?_, by simpa using foldlM_setk_keys _ _ _ _ hreg (by simp) ht⟩
  intro p hp
  obtain ⟨y, hy, hy'⟩ := (foldlM_setk_ok _ _ _ _ ht).1 p hp
  obtain ⟨cs, c1, c2⟩ := election_sum_ok _ _ hy
  exact ⟨cs, c1, by rw [hy', c2, zero_add]⟩

theorem electionResults_error {parties : List (String × String)} {counts : Dict String (Dict P Num)}
    {regions : List P} {e : PyErr} (h : electionResults parties counts regions = .error e) :
    ∃ p ∈ regions, ∃ pc ∈ parties, ∀ d, counts.get? pc.1 = some d → p ∉ d.keys := by
  unfold electionResults at h
  rw [Py.bind_eq_error] at h
  rcases h with h | ⟨_, _, h⟩
  · obtain ⟨p, hp, h⟩ := foldlM_setk_error _ _ _ _ h
    exact ⟨p, hp, election_sum_error _ _ h⟩
  · simp at h

section
variable {F : Frame V P} (hF : FrameInv F) {limit : ℕ} {rec : Key → ℕ → M (Caches V P) (Val V P)}
  (hrec : RecSpec F limit rec) {p : ℕ} {v : View V P} (hv : F.view p = some v)
include hF hrec hv

theorem call {k k' : Key} {q : ℕ} {w : View V P} (hw : F.view q = some w)
    (hs : Safe F (limit + 1) k p → Safe F limit k' q) :
    M.Sat (CacheInv F) (rec k' q)
      (fun x c => CacheInv F c ∧ Correct F.data (F.moved q) w.assignment k' x)
      (fun _ c => CacheInv F c ∧ ¬ Safe F (limit + 1) k p) := by
  refine M.Sat.conseq (hrec k' q) (fun _ h => h) ?_ ?_
  · rintro x c ⟨hc, w', hw', hx⟩
    rw [hw] at hw'; cases hw'
    exact ⟨hc, hx⟩
  · rintro e c ⟨hc, hn⟩
    exact ⟨hc, fun h => hn (hs h)⟩

omit hrec hv in
theorem safe_parent {k : Key} {q : ℕ} {w : View V P} (hv : F.view p = some v) (hp : v.parent = some q) (hl : Link F p v q w)
    (h : Safe F (limit + 1) k p) : Safe F limit k q := by
  obtain ⟨d, hd, hk⟩ := h.lim
  rcases d with _ | d
  · exact hd.elim
  · exact ⟨Frame.lt_of_view hl.view, h.reg, ⟨d, Link.shallow hv hp hd, by omega⟩,
      h.deps.parent (by rw [Frame.parent_of_view hv, hp]) hl.lt.le⟩

theorem body_cutEdges : BodySpec F limit rec .cutEdges p := by
  intro v hv
  unfold compute
  simp only [hv]
  rcases truthyParent_cases hF hv with ht | ⟨q, w, ht, hp, hl⟩
  · rw [ht]
    exact M.Sat.pure (fun c hc => ⟨hc, cutEdgesInit_eq⟩)
  · rw [ht]
    obtain ⟨fl, flows, h1, h2, h3, h4, h5, h6, h7⟩ := hl.ex
    simp only [h1, hl.view]
    refine M.Sat.bind_ok rfl (M.Sat.bind_ok rfl (M.Sat.bindI (call hF hrec hv hl.view (safe_parent hF hv hp hl)) ?_))
    intro x hx
    rw [hx.cutEdges]
    refine M.Sat.bind_ok rfl (M.Sat.pure (fun c hc => ⟨hc, ?_⟩))
    apply cutEdgesStep_eq hF.graph
    intro u hu
    rw [h4.get?, Dict.get?_eq_none_iff.2 hu]; rfl

theorem body_cutEdgesByPart : BodySpec F limit rec .cutEdgesByPart p := by
  intro v hv
  unfold compute
  simp only [hv]
  rcases truthyParent_cases hF hv with ht | ⟨q, w, ht, hp, hl⟩
  · rw [ht]
    obtain ⟨d, h1, h2⟩ := putEdgesIntoParts_ok (m := v.assignment.mapping)
      (s := cutEdgesInit F.data.graph v.assignment.mapping) (by
        intro e he
        rw [cutEdgesInit_eq, mem_cutsOf] at he
        obtain ⟨k1, k2⟩ := hF.graph.mem_of_adj he.1.2
        have := hF.covers p v hv
        exact ⟨(this _).2 k1, (this _).2 k2⟩)
    refine M.Sat.bind_ok h1 (M.Sat.pure (fun c hc => ⟨hc, ?_⟩))
    intro r
    ext e
    rw [h2, cutEdgesInit_eq, cutsTouching, Finset.mem_filter]
  · rw [ht]
    obtain ⟨fl, flows, h1, h2, h3, h4, h5, h6, h7⟩ := hl.ex
    by_cases hu : Key.cutEdges ∈ F.updaters
    swap
    · exact M.Sat.bind_error (by rw [h7 hu]; rfl) (fun c hc => ⟨hc, fun hs => hu hs.deps⟩)
    obtain ⟨ef, he1, hef⟩ := h6 hu
    refine M.Sat.bind_ok (by rw [he1]; rfl) (M.Sat.bindI (call hF hrec hv hl.view (safe_parent hF hv hp hl)) ?_)
    intro x hx
    obtain ⟨prev, rfl, hprev⟩ := hx.cutEdgesByPart
    refine M.Sat.bind_ok rfl ?_
    refine M.Sat.bindI (M.Sat.foldlM_set (R := fun (e : P × Flow (V × V)) y =>
      y = (((prev.get? e.1).getD ∅) ∪ e.2.inn) \ e.2.out) (fun e => e.1) ef.entries ?_ prev) ?_
    · intro d e he
      refine M.Sat.bindI touchEdges_sat ?_
      intro _ _
      exact M.Sat.pure (fun c hc => ⟨hc, _, rfl, rfl⟩)
    · rintro d ⟨hd1, hd2⟩
      refine M.Sat.pure (fun c hc => ⟨hc, ?_⟩)
      intro r
      rw [cutsTouching_flow hef r, ← hprev r]
      by_cases hr : r ∈ ef.keys
      · obtain ⟨e, he, rfl, y, rfl, hy⟩ := hd1 r hr
        obtain ⟨f1, f2⟩ := flow_entry hef.wf he
        rw [hy, f1, f2]; rfl
      · rw [hd2 r hr]
        have := Dict.get?_eq_none_iff.2 hr
        simp [flowIn, flowOut, this, Flow.create]

omit hrec in
/-- A key with a flow has an entry in the parent's tally when the columns are safe. -/
theorem tally_no_error {val : V → Num} {q : ℕ} {w : View V P} (hp : v.parent = some q) (hl : Link F p v q w) {flows : Dict P (Flow V)}
    (hfl : v.flows = some flows) (hs : TallySafe F val p) {d : Dict P Num} (hd : TallyOK val (F.moved q) w.assignment d) :
    ∀ r ∈ flows.keys, r ∈ d.keys := by
  obtain ⟨fl, flows', h1, h2, h3, h4, h5, h6, h7⟩ := hl.ex
  rw [hfl] at h2; cases h2
  intro r hr
  rw [h5.mem_keys] at hr
  obtain ⟨u, q', hu1, hu2, hu3⟩ := hr
  have hrk : r ∈ w.assignment.parts.keys := by
    rcases hu3 with rfl | hu3
    · rw [← h4.keys]
      apply h4.coherent.complete u
      rw [h4.get?, hu1]; rfl
    · exact (hF.coherent q w hl.view).complete u r hu3
  obtain ⟨v', hv', hb⟩ := hs.2 q (.parent (by rw [Frame.parent_of_view hv, hp])) w hl.view r hrk
  exact (hd (fun v hv => hs.1 v (moved_mono hl.lt.le v hv))).2.1 r v' hv' hb

theorem body_tally (fields : List String) : BodySpec F limit rec (.tally fields) p := by
  intro v hv
  unfold compute
  simp only [hv]
  rcases hp : v.parent with _ | q
  · exact M.Sat.pure (fun c hc => ⟨hc, tallyInit_ok (hF.coherent p v hv) _ _⟩)
  · obtain ⟨w, hl⟩ := hF.link p v q hv hp
    obtain ⟨fl, flows, h1, h2, h3, h4, h5, h6, h7⟩ := hl.ex
    refine M.Sat.bindI (call hF hrec hv hl.view (safe_parent hF hv hp hl)) ?_
    intro x hx
    obtain ⟨prev, rfl, hprev⟩ := hx.tally
    refine M.Sat.bind_ok rfl (M.Sat.bind_ok (by rw [h2]; rfl) ?_)
    rcases hd : tallyStep (tallyFromNode F.data fields) flows prev with e | d
    · refine M.Sat.bind_error rfl (fun c hc => ⟨hc, fun hs => ?_⟩)
      obtain ⟨r, hr, hr'⟩ := tallyStep_error (Or.inl hd)
      exact hr' (tally_no_error hF hv hp hl h2 hs.deps hprev r hr)
    · refine M.Sat.bind_ok rfl (M.Sat.pure (fun c hc => ⟨hc, ?_⟩))
      exact tallyStep_ok (hF.coherent q w hl.view) h4 h5 _ _ _ (moved_mono hl.lt.le) (moved_flips hv h1) hprev hd

theorem body_dataTally (col : String) : BodySpec F limit rec (.dataTally col) p := by
  intro v hv
  unfold compute
  simp only [hv]
  rcases hp : v.parent with _ | q
  · exact M.Sat.pure (fun c hc => ⟨hc, tallyInit_ok (hF.coherent p v hv) _ _⟩)
  · obtain ⟨w, hl⟩ := hF.link p v q hv hp
    obtain ⟨fl, flows, h1, h2, h3, h4, h5, h6, h7⟩ := hl.ex
    refine M.Sat.bindI (call hF hrec hv hl.view (safe_parent hF hv hp hl)) ?_
    intro x hx
    obtain ⟨prev, rfl, hprev⟩ := hx.dataTally
    refine M.Sat.bind_ok rfl (M.Sat.bind_ok (by rw [h2]; rfl) ?_)
    rcases hd : dataTallyStep (F.data.col col) flows prev with e | d
    · refine M.Sat.bind_error rfl (fun c hc => ⟨hc, fun hs => ?_⟩)
      obtain ⟨r, hr, hr'⟩ := tallyStep_error (Or.inr hd)
      exact hr' (tally_no_error hF hv hp hl h2 hs.deps hprev r hr)
    · refine M.Sat.bind_ok rfl (M.Sat.pure (fun c hc => ⟨hc, ?_⟩))
      exact dataTallyStep_ok (hF.coherent q w hl.view) h4 h5 _ _ _ (moved_mono hl.lt.le) (moved_flips hv h1) hprev hd

theorem body_boundaryNodes : BodySpec F limit rec .boundaryNodes p := by
  intro v hv
  unfold compute
  simp only [hv]
  rcases truthyParent_cases hF hv with ht | ⟨q, w, ht, hp, hl⟩
  · rw [ht]
    exact M.Sat.pure (fun c hc => ⟨hc, rfl⟩)
  · rw [ht]
    refine M.Sat.conseq (call hF hrec hv hl.view (safe_parent hF hv hp hl)) (fun _ h => h) ?_ (fun _ _ h => h)
    rintro x c ⟨hc, hx⟩
    rw [hx.boundaryNodes]
    exact ⟨hc, rfl⟩

omit hrec hv in
theorem safe_bn {k : Key} (hk : k = .extBoundarySet ∨ k = .extBoundary) (h : Safe F (limit + 1) k p) :
    Safe F limit .boundaryNodes p := by
  refine ⟨h.obj, ?_, ?_, trivial⟩
  · rcases hk with rfl | rfl <;> exact h.deps
  · obtain ⟨d, hd, hl⟩ := h.lim
    refine ⟨d, hd, ?_⟩
    rcases hk with rfl | rfl <;> simp only [level] at hl ⊢ <;> omega

theorem body_extBoundarySet : BodySpec F limit rec .extBoundarySet p := by
  intro v hv
  unfold compute
  simp only [hv]
  rcases hp : v.parent with _ | q
  · refine M.Sat.bindI (call hF hrec hv hv (safe_bn hF (Or.inl rfl))) ?_
    intro x hx
    rw [hx.boundaryNodes]
    obtain ⟨d, h1, h2⟩ := extSetInit_ok (hF.coherent p v hv) (hF.covers p v hv)
    exact M.Sat.bind_ok rfl (M.Sat.bind_ok h1 (M.Sat.pure (fun c hc => ⟨hc, h2⟩)))
  · obtain ⟨w, hl⟩ := hF.link p v q hv hp
    obtain ⟨fl, flows, h1, h2, h3, h4, h5, h6, h7⟩ := hl.ex
    refine M.Sat.bindI (call hF hrec hv hl.view (safe_parent hF hv hp hl)) ?_
    intro x hx
    obtain ⟨prev, rfl, hprev⟩ := hx.extBoundarySet
    refine M.Sat.bind_ok rfl (M.Sat.bind_ok (by rw [h2]; rfl) ?_)
    refine M.Sat.bindI (M.Sat.foldlM_set (R := fun (e : P × Flow V) y =>
      y = extSetPart (boundaryNodesInit F.data) ((prev.get? e.1).getD ∅) e.2.inn e.2.out)
      (fun e => e.1) flows.entries ?_ prev) ?_
    · intro d e he
      refine M.Sat.bindI touchNodes_sat ?_
      intro _ _
      refine M.Sat.bindI (call hF hrec hv hv (safe_bn hF (Or.inl rfl))) ?_
      intro x hx
      rw [hx.boundaryNodes]
      exact M.Sat.bind_ok rfl (M.Sat.pure (fun c hc => ⟨hc, _, rfl, rfl⟩))
    · rintro d ⟨hd1, hd2⟩
      refine M.Sat.pure (fun c hc => ⟨hc, ?_⟩)
      intro r
      by_cases hr : r ∈ flows.keys
      · obtain ⟨e, he, rfl, y, rfl, hy⟩ := hd1 r hr
        obtain ⟨f1, f2⟩ := flow_entry h5.wf he
        rw [hy, f1, f2, hprev, filter_partOf_flow (hF.coherent q w hl.view) h4 h5 e.1 (hF.covers p v hv)]; rfl
      · rw [hd2 r hr, hprev, partOf_noflow (hF.coherent q w hl.view) h4 h5 hr]

theorem body_extBoundary : BodySpec F limit rec .extBoundary p := by
  intro v hv
  unfold compute
  simp only [hv]
  rcases hp : v.parent with _ | q
  · refine M.Sat.bindI (call hF hrec hv hv (safe_bn hF (Or.inr rfl))) ?_
    intro x hx
    rw [hx.boundaryNodes]
    obtain ⟨d, h1, h2⟩ := extInit_ok (hF.coherent p v hv) (hF.covers p v hv)
    exact M.Sat.bind_ok rfl (M.Sat.bind_ok h1 (M.Sat.pure (fun c hc => ⟨hc, h2⟩)))
  · obtain ⟨w, hl⟩ := hF.link p v q hv hp
    obtain ⟨fl, flows, h1, h2, h3, h4, h5, h6, h7⟩ := hl.ex
    refine M.Sat.bindI (call hF hrec hv hl.view (safe_parent hF hv hp hl)) ?_
    intro x hx
    obtain ⟨prev, rfl, hprev⟩ := hx.extBoundary
    refine M.Sat.bind_ok rfl (M.Sat.bind_ok (by rw [h2]; rfl) ?_)
    refine M.Sat.bindI (M.Sat.foldlM_set (R := fun (e : P × Flow V) y =>
      y = extPart F.data (boundaryNodesInit F.data) ((prev.get? e.1).getD 0) e.2.inn e.2.out)
      (fun e => e.1) flows.entries ?_ prev) ?_
    · intro d e he
      refine M.Sat.bindI touchRats_sat ?_
      intro _ _
      refine M.Sat.bindI (call hF hrec hv hv (safe_bn hF (Or.inr rfl))) ?_
      intro x hx
      rw [hx.boundaryNodes]
      exact M.Sat.bind_ok rfl (M.Sat.pure (fun c hc => ⟨hc, _, rfl, rfl⟩))
    · rintro d ⟨hd1, hd2⟩
      refine M.Sat.pure (fun c hc => ⟨hc, ?_⟩)
      intro r
      by_cases hr : r ∈ flows.keys
      · obtain ⟨e, he, rfl, y, rfl, hy⟩ := hd1 r hr
        obtain ⟨f1, f2⟩ := flow_entry h5.wf he
        rw [hy, f1, f2, hprev, sum_filter_partOf_flow (hF.coherent q w hl.view) h4 h5 e.1
          (hF.covers q w hl.view) (hF.covers p v hv)]; rfl
      · rw [hd2 r hr, hprev, partOf_noflow (hF.coherent q w hl.view) h4 h5 hr]

theorem body_intBoundary : BodySpec F limit rec .intBoundary p := by
  intro v hv
  unfold compute
  simp only [hv]
  rcases truthyParent_cases hF hv with ht | ⟨q, w, ht, hp, hl⟩
  · rw [ht]
    refine M.Sat.bindI (M.Sat.foldlM_set (R := fun (r : P) y =>
      y = (cutsTouching F.data.graph v.assignment.mapping r).sum F.data.sharedPerim)
      (fun r => r) v.assignment.parts.keys ?_ Dict.empty) ?_
    · intro d r hr
      refine M.Sat.bindI (call hF hrec hv hv (k' := .cutEdgesByPart) ?_) ?_
      · intro h
        refine ⟨h.obj, h.deps.2, ?_, h.deps.1⟩
        obtain ⟨d, hd, hl⟩ := h.lim
        exact ⟨d, hd, by simp only [level] at hl ⊢; omega⟩
      intro x hx
      obtain ⟨ce, rfl, hce⟩ := hx.cutEdgesByPart
      refine M.Sat.bind_ok rfl (M.Sat.bindI touchEdges_sat ?_)
      intro _ _
      exact M.Sat.pure (fun c hc => ⟨hc, _, by rw [hce], rfl⟩)
    · rintro d ⟨hd1, hd2⟩
      refine M.Sat.pure (fun c hc => ⟨hc, ?_, ?_⟩)
      · intro r hr
        obtain ⟨e, he, rfl, y, rfl, hy⟩ := hd1 r (by simpa using hr)
        exact Dict.mem_keys_iff.2 ⟨_, hy⟩
      · intro r x hx
        by_cases hr : r ∈ v.assignment.parts.keys
        · obtain ⟨e, he, rfl, y, rfl, hy⟩ := hd1 r (by simpa using hr)
          rw [hx] at hy; exact Option.some.inj hy
        · rw [hd2 r (by simpa using hr)] at hx; simp at hx
  · rw [ht]
    obtain ⟨fl, flows, h1, h2, h3, h4, h5, h6, h7⟩ := hl.ex
    by_cases hu : Key.cutEdges ∈ F.updaters
    swap
    · exact M.Sat.bind_error (by rw [h7 hu]; rfl) (fun c hc => ⟨hc, fun hs => hu hs.deps.1⟩)
    obtain ⟨ef, he1, hef⟩ := h6 hu
    refine M.Sat.bind_ok (by rw [he1]; rfl) (M.Sat.bindI (call hF hrec hv hl.view (safe_parent hF hv hp hl)) ?_)
    intro x hx
    obtain ⟨prev, rfl, hp1, hp2⟩ := hx.intBoundary
    have hkey : ∀ e ∈ ef.entries, e.1 ∈ w.assignment.parts.keys := by
      intro e he
      obtain ⟨u, hu⟩ := hef.mem_keys e.1 (List.mem_map.2 ⟨e, he, rfl⟩)
      rcases hu with hu | hu
      · exact (hF.coherent q w hl.view).complete u _ hu
      · rw [← h4.keys]; exact h4.coherent.complete u _ hu
    refine M.Sat.bind_ok rfl ?_
    refine M.Sat.bindI (M.Sat.foldlM_set (R := fun (e : P × Flow (V × V)) y => ∃ old, prev.get? e.1 = some old ∧
      y = intPart F.data old e.2.inn e.2.out) (fun e => e.1) ef.entries ?_ prev) ?_
    · intro d e he
      obtain ⟨old, hold⟩ := Dict.mem_keys_iff.1 (hp1 _ (hkey e he))
      exact M.Sat.bind_ok (Dict.get_eq_ok_iff.2 hold) (M.Sat.pure (fun c hc => ⟨hc, _, ⟨old, hold, rfl⟩, rfl⟩))
    · rintro d ⟨hd1, hd2⟩
      refine M.Sat.pure (fun c hc => ⟨hc, ?_, ?_⟩)
      · intro r hr
        by_cases hr' : r ∈ ef.keys
        · obtain ⟨e, he, rfl, y, -, hy⟩ := hd1 r hr'
          exact Dict.mem_keys_iff.2 ⟨_, hy⟩
        · rw [Dict.mem_keys_iff, hd2 r hr', ← Dict.mem_keys_iff]
          exact hp1 r (by rw [← h4.keys]; exact hr)
      · intro r x hx
        by_cases hr' : r ∈ ef.keys
        · obtain ⟨e, he, rfl, y, ⟨old, ho1, rfl⟩, hy⟩ := hd1 r hr'
          rw [hx] at hy
          obtain ⟨f1, f2⟩ := flow_entry hef.wf he
          rw [Option.some.inj hy, hp2 _ _ ho1, f1, f2, sum_cutsTouching_flow hef]
        · rw [hd2 r hr'] at hx
          rw [hp2 _ _ hx, sum_cutsTouching_flow hef]
          have := Dict.get?_eq_none_iff.2 hr'
          simp [flowIn, flowOut, this, Flow.create, intPart]

theorem body_perimeter : BodySpec F limit rec .perimeter p := by
  intro v hv
  unfold compute
  simp only [hv]
  refine M.Sat.bindI (M.Sat.foldlM_set (R := fun (r : P) y =>
      y = ((v.assignment.partOf r).filter (fun v => F.data.boundaryNode v)).sum F.data.boundaryPerim +
        (cutsTouching F.data.graph v.assignment.mapping r).sum F.data.sharedPerim)
      (fun r => r) v.assignment.parts.keys ?_ Dict.empty) ?_
  · intro d r hr
    refine M.Sat.bindI (call hF hrec hv hv (k' := .extBoundary) ?_) ?_
    · intro h
      obtain ⟨k1, k2, k3, k4, k5⟩ := h.deps
      refine ⟨h.obj, k4, ?_, k3⟩
      obtain ⟨d, hd, hl⟩ := h.lim
      exact ⟨d, hd, by simp only [level] at hl ⊢; omega⟩
    intro x hx
    obtain ⟨ext, rfl, hext⟩ := hx.extBoundary
    refine M.Sat.bind_ok rfl (M.Sat.bindI touchRats_sat ?_)
    intro _ _
    refine M.Sat.bindI (call hF hrec hv hv (k' := .intBoundary) ?_) ?_
    · intro h
      obtain ⟨k1, k2, k3, k4, k5⟩ := h.deps
      refine ⟨h.obj, k5, ?_, k1, k2⟩
      obtain ⟨d, hd, hl⟩ := h.lim
      exact ⟨d, hd, by simp only [level] at hl ⊢; omega⟩
    intro x hx
    obtain ⟨int, rfl, hi1, hi2⟩ := hx.intBoundary
    obtain ⟨i, hi⟩ := Dict.mem_keys_iff.1 (hi1 r hr)
    refine M.Sat.bind_ok rfl (M.Sat.bind_ok (Dict.get_eq_ok_iff.2 hi) (M.Sat.pure (fun c hc => ⟨hc, _, ?_, rfl⟩)))
    rw [hext, hi2 _ _ hi]
  · rintro d ⟨hd1, hd2⟩
    refine M.Sat.pure (fun c hc => ⟨hc, ?_⟩)
    intro r hr
    obtain ⟨e, he, rfl, y, rfl, hy⟩ := hd1 r (by simpa using hr)
    exact hy

theorem body_countySplits (field : String) : BodySpec F limit rec (.countySplits field) p := by
  intro v hv
  unfold compute
  simp only [hv]
  rcases truthyParent_cases hF hv with ht | ⟨q, w, ht, hp, hl⟩
  · rw [ht]
    obtain ⟨d, h1, h2, -⟩ := countySplitsInit_ok (county := F.data.region field) (hF.covers p v hv)
    exact M.Sat.bind_ok h1 (M.Sat.pure (fun c hc => ⟨hc, h2⟩))
  · rw [ht]
    refine M.Sat.bindI (call hF hrec hv hl.view (safe_parent hF hv hp hl)) ?_
    intro x hx
    obtain ⟨prev, rfl, hprev⟩ := hx.countySplits
    obtain ⟨d, h1, h2, -⟩ := countySplitsStep_ok (hF.covers p v hv) hprev
    exact M.Sat.bind_ok rfl (M.Sat.bind_ok h1 (M.Sat.pure (fun c hc => ⟨hc, h2⟩)))

theorem body_election (parties : List (String × String)) : BodySpec F limit rec (.election parties) p := by
  intro v hv
  unfold compute
  simp only [hv]
  -- the second half of the body, common to both branches
  have finish : ∀ counts : Dict String (Dict P Num),
      (∀ party col, (party, col) ∈ parties → (parties.map (·.1)).Nodup →
        ∃ d, counts.get? party = some d ∧ TallyOK (F.data.col col) (F.moved p) v.assignment d) →
      M.Sat (CacheInv F) (do
          let r ← M.lift (electionResults parties counts v.assignment.parts.keys)
          pure (Val.election r))
        (fun x c => CacheInv F c ∧ Correct F.data (F.moved p) v.assignment (.election parties) x)
        (fun _ c => CacheInv F c ∧ ¬ Safe F (limit + 1) (.election parties) p) := by
    intro counts hcounts
    rcases hr : electionResults parties counts v.assignment.parts.keys with e | r
    · refine M.Sat.bind_error rfl (fun c hc => ⟨hc, fun hs => ?_⟩)
      obtain ⟨part, hpart, pc, hpc, hbad⟩ := electionResults_error hr
      obtain ⟨hnd, hsafe⟩ := hs.deps
      obtain ⟨d, hd1, hd2⟩ := hcounts pc.1 pc.2 hpc hnd
      have hts := hsafe pc hpc
      obtain ⟨u, hu, hb⟩ := hts.2 v hv part hpart
      exact hbad d hd1 ((hd2 hts.1.1).2.1 part u hu hb)
    · refine M.Sat.bind_ok rfl (M.Sat.pure (fun c hc => ⟨hc, ?_⟩))
      obtain ⟨r1, r2, r3, r4⟩ := electionResults_ok (hF.coherent p v hv).parts_wf hr
      exact ⟨by rw [r1]; exact hcounts, r2, r3, r4⟩
  have uniq : ∀ {e : String × String} {party col : String}, (parties.map (·.1)).Nodup → (party, col) ∈ parties →
      e ∈ parties → e.1 = party → e.2 = col := by
    intro e party col hnd h1 h2 h3
    have hw : (Dict.mk parties : Dict String String).WF := hnd
    have a1 := Dict.get?_of_mem_entries hw (k := e.1) (v := e.2) h2
    have a2 := Dict.get?_of_mem_entries hw h1
    rw [h3, a2] at a1
    exact (Option.some.inj a1).symm
  rcases hp : v.parent with _ | q
  · refine M.Sat.bindI (R := fun x => none = x) (M.Sat.pure (fun c hc => ⟨hc, rfl⟩)) ?_
    rintro _ rfl
    refine M.Sat.bindI (M.Sat.foldlM_set (R := fun (pc : String × String) y =>
      TallyOK (F.data.col pc.2) (F.moved p) v.assignment y) (fun pc => pc.1) parties ?_ Dict.empty) ?_
    · intro d pc hpc
      exact M.Sat.pure (fun c hc => ⟨hc, _, tallyInit_ok (hF.coherent p v hv) _ _, rfl⟩)
    · rintro counts ⟨hc1, hc2⟩
      apply finish
      intro party col hmem hnd
      obtain ⟨e, he, h1, y, hy, hy'⟩ := hc1 party (List.mem_map.2 ⟨_, hmem, rfl⟩)
      rw [uniq hnd hmem he h1] at hy
      exact ⟨y, hy', hy⟩
  · obtain ⟨w, hl⟩ := hF.link p v q hv hp
    obtain ⟨fl, flows, h1, h2, h3, h4, h5, h6, h7⟩ := hl.ex
    refine M.Sat.bindI (R := fun x => ∃ r, x = some r.totalsForParty ∧
      ElectionOK F.data (F.moved q) parties w.assignment r) ?_ ?_
    · refine M.Sat.bindI (call hF hrec hv hl.view (safe_parent hF hv hp hl)) ?_
      intro x hx
      obtain ⟨r, rfl, hr⟩ := hx.election
      exact M.Sat.bind_ok rfl (M.Sat.pure (fun c hc => ⟨hc, r, rfl, hr⟩))
    rintro _ ⟨r, rfl, hr⟩
    refine M.Sat.bindI (M.Sat.foldlM_set (R := fun (pc : String × String) y => (parties.map (·.1)).Nodup →
      TallyOK (F.data.col pc.2) (F.moved p) v.assignment y) (fun pc => pc.1) parties ?_ Dict.empty) ?_
    · intro d pc hpc
      rcases hprev : r.totalsForParty.get pc.1 with e | prev
      · refine M.Sat.bind_error hprev (fun c hc => ⟨hc, fun hs => ?_⟩)
        obtain ⟨d, hd, -⟩ := hr.counts pc.1 pc.2 hpc hs.deps.1
        rw [(Dict.get_eq_error_iff.1 hprev).1] at hd
        cases hd
      · refine M.Sat.bind_ok hprev (M.Sat.bind_ok (by rw [h2]; rfl) ?_)
        rw [Dict.get_eq_ok_iff] at hprev
        have hok : (parties.map (·.1)).Nodup → TallyOK (F.data.col pc.2) (F.moved q) w.assignment prev := by
          intro hnd
          obtain ⟨d, hd, hd'⟩ := hr.counts pc.1 pc.2 hpc hnd
          rw [hprev] at hd; cases hd
          exact hd'
        rcases ht : dataTallyStep (F.data.col pc.2) flows prev with e | t
        · refine M.Sat.bind_error rfl (fun c hc => ⟨hc, fun hs => ?_⟩)
          obtain ⟨part, hr, hr'⟩ := tallyStep_error (Or.inr ht)
          exact hr' (tally_no_error hF hv hp hl h2 (hs.deps.2 pc hpc).1 (hok hs.deps.1) part hr)
        · refine M.Sat.bind_ok rfl (M.Sat.pure (fun c hc => ⟨hc, _, ?_, rfl⟩))
          intro hnd
          exact dataTallyStep_ok (hF.coherent q w hl.view) h4 h5 _ _ _ (moved_mono hl.lt.le)
            (moved_flips hv h1) (hok hnd) ht
    · rintro counts ⟨hc1, hc2⟩
      apply finish
      intro party col hmem hnd
      obtain ⟨e, he, h1, y, hy, hy'⟩ := hc1 party (List.mem_map.2 ⟨_, hmem, rfl⟩)
      rw [uniq hnd hmem he h1] at hy
      exact ⟨y, hy', hy hnd⟩

theorem body_all (k : Key) : BodySpec F limit rec k p := by
  cases k with
  | cutEdges => exact body_cutEdges hF hrec hv
  | cutEdgesByPart => exact body_cutEdgesByPart hF hrec hv
  | tally f => exact body_tally hF hrec hv f
  | dataTally f => exact body_dataTally hF hrec hv f
  | boundaryNodes => exact body_boundaryNodes hF hrec hv
  | extBoundarySet => exact body_extBoundarySet hF hrec hv
  | extBoundary => exact body_extBoundary hF hrec hv
  | intBoundary => exact body_intBoundary hF hrec hv
  | perimeter => exact body_perimeter hF hrec hv
  | election ps => exact body_election hF hrec hv ps
  | countySplits f => exact body_countySplits hF hrec hv f

end

/-- Every lookup returns a right value and keeps the caches right; it cannot raise when it is `Safe`. -/
theorem getitem_sat {F : Frame V P} (hF : FrameInv F) (limit : ℕ) : RecSpec F limit (getitem F limit) := by
  induction limit with
  | zero =>
    intro k q
    exact M.Sat.raise (fun c hc => ⟨hc, fun hs => by
      obtain ⟨d, hd, hl⟩ := hs.lim
      obtain rfl : d = 0 := by omega
      exact hd⟩)
  | succ limit ih =>
    intro k q
    unfold getitem
    refine M.Sat.read_bind (fun c hc => ?_)
    rcases hx : (c q).get? k with _ | x
    · simp only
      split
      · rename_i hk
        rcases hv : F.view q with _ | v
        · rintro c' rfl
          have : compute F (getitem F limit) k q = M.raise .attributeError := by unfold compute; rw [hv]
          rw [this]
          refine ⟨hc, fun hs => ?_⟩
          obtain ⟨v, hv'⟩ := hF.exists_view hs.obj
          rw [hv] at hv'; cases hv'
        · refine M.Sat.bind (M.Sat.conseq (body_all hF ih hv k v hv) (by rintro _ rfl; exact hc)
            (fun _ _ h => h) (fun _ _ h => h)) ?_
          intro x c1 h
          have key : M.Sat (CacheInv F) (do cacheSet q k x; pure x)
              (fun x c => CacheInv F c ∧ ∃ v', some v = some v' ∧ Correct F.data (F.moved q) v'.assignment k x)
              (fun _ c => CacheInv F c ∧ ¬ Safe F (limit + 1) k q) :=
            M.Sat.bindI (cacheSet_sat hv h.2) (fun _ _ => M.Sat.pure (fun c hc => ⟨hc, v, rfl, h.2⟩))
          exact key c1 h.1
      · rename_i hk
        exact M.Sat.raise (by rintro _ rfl; exact ⟨hc, fun hs => hk hs.reg⟩)
    · simp only
      refine M.Sat.pure ?_
      rintro _ rfl
      exact ⟨hc, hc q k x hx⟩

end GC

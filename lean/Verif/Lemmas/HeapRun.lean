import Verif.Lemmas.HeapCompute

/-!
# Operations preserve the heap invariant
-/

set_option linter.unusedSectionVars false
set_option autoImplicit false

namespace GC

variable {V P : Type} [LinearOrder V] [DecidableEq P]

/-- Allocate an assignment and an object. -/
def Frame.push (F : Frame V P) (a : Assignment V P) (parent : Option ℕ) (flips : Option (Dict V P))
    (flows : Option (Dict P (Flow V))) (ef : Option (Dict P (Flow (V × V)))) : Frame V P :=
  { F with
    partsCells := F.partsCells ++ [a.parts]
    mapCells := F.mapCells ++ [a.mapping]
    objs := F.objs ++ [⟨F.partsCells.length, F.mapCells.length, parent, flips, flows, ef⟩] }

section push
variable {F : Frame V P} {a : Assignment V P} {parent : Option ℕ} {flips : Option (Dict V P)}
    {flows : Option (Dict P (Flow V))} {ef : Option (Dict P (Flow (V × V)))}

theorem view_push_new : (F.push a parent flips flows ef).view F.objs.length =
    some ⟨a, parent, flips, flows, ef⟩ := by
  simp [Frame.push, Frame.view]

theorem view_push_old {p : ℕ} {v : View V P} (h : F.view p = some v) :
    (F.push a parent flips flows ef).view p = some v := by
  have hp := Frame.lt_of_view h
  obtain ⟨o, h1, h2, h3, h4, h5, h6, h7⟩ := Frame.view_eq_some h
  have l2 : o.partsRef < F.partsCells.length := by
    by_contra hc
    rw [List.getElem?_eq_none (by omega)] at h2; cases h2
  have l3 : o.mapRef < F.mapCells.length := by
    by_contra hc
    rw [List.getElem?_eq_none (by omega)] at h3; cases h3
  unfold Frame.view Frame.push
  simp only [List.getElem?_append_left hp, h1, Option.bind_eq_bind, Option.bind_some,
    List.getElem?_append_left l2, List.getElem?_append_left l3, h2, h3]
  obtain ⟨⟨_, _⟩, _, _, _, _⟩ := v
  simp_all

theorem view_push_inv {p : ℕ} {v : View V P} (hF : FrameInv F) (h : (F.push a parent flips flows ef).view p = some v) :
    (p < F.objs.length ∧ F.view p = some v) ∨ (p = F.objs.length ∧ v = ⟨a, parent, flips, flows, ef⟩) := by
  have hp := Frame.lt_of_view h
  simp only [Frame.push, List.length_append, List.length_cons, List.length_nil] at hp
  by_cases hlt : p < F.objs.length
  · left
    obtain ⟨w, hw⟩ := hF.exists_view hlt
    have := view_push_old (a := a) (parent := parent) (flips := flips) (flows := flows) (ef := ef) hw
    rw [h] at this
    cases this
    exact ⟨hlt, hw⟩
  · right
    obtain rfl : p = F.objs.length := by omega
    rw [view_push_new] at h
    cases h
    exact ⟨rfl, rfl⟩

theorem Link.push {p q : ℕ} {v w : View V P} (h : Link F p v q w) :
    Link (F.push a parent flips flows ef) p v q w :=
  ⟨h.lt, view_push_old h.view, h.ex⟩

theorem moved_push {p : ℕ} (hp : p < F.objs.length) (x : V) :
    (F.push a parent flips flows ef).moved p x ↔ F.moved p x := by
  unfold Frame.moved Frame.push
  constructor
  · rintro ⟨i, hi, o, ho, h⟩
    simp only at ho
    rw [List.getElem?_append_left (by omega)] at ho
    exact ⟨i, hi, o, ho, h⟩
  · rintro ⟨i, hi, o, ho, h⟩
    refine ⟨i, hi, o, ?_, h⟩
    simp only
    rw [List.getElem?_append_left (by omega)]
    exact ho

theorem FrameInv.push (hF : FrameInv F) (ha : a.Coherent) (hc : a.Covers F.data.graph.nodes)
    (hl : ∀ q, parent = some q → ∃ w, Link (F.push a parent flips flows ef) F.objs.length
      ⟨a, parent, flips, flows, ef⟩ q w)
    (hfl : ∀ fl, flips = some fl → fl.WF ∧ ∀ n r, fl.get? n = some r → a.mapping.get? n = some r)
    (hfr : flips = none → parent = none ∧ ∀ part s, a.parts.get? part = some s → s.Nonempty) :
    FrameInv (F.push a parent flips flows ef) := by
  refine ⟨hF.graph, ?_, ?_, ?_, ?_, ?_, ?_⟩
  · intro p o ho
    simp only [Frame.push] at ho ⊢
    by_cases hp : p < F.objs.length
    · rw [List.getElem?_append_left hp] at ho
      have := hF.refs p o ho
      simp only [List.length_append, List.length_cons, List.length_nil]
      omega
    · rw [List.getElem?_append_right (by omega)] at ho
      rcases hk : p - F.objs.length with _ | k
      · rw [hk] at ho
        simp at ho
        subst ho
        simp
      · rw [hk] at ho; simp at ho
  · intro p v hv
    rcases view_push_inv hF hv with ⟨-, h⟩ | ⟨-, rfl⟩
    · exact hF.coherent p v h
    · exact ha
  · intro p v hv
    rcases view_push_inv hF hv with ⟨-, h⟩ | ⟨-, rfl⟩
    · exact hF.covers p v h
    · exact hc
  · intro p v q hv hq
    rcases view_push_inv hF hv with ⟨-, h⟩ | ⟨rfl, rfl⟩
    · obtain ⟨w, hw⟩ := hF.link p v q h hq
      exact ⟨w, hw.push⟩
    · exact hl q hq
  · intro p v fl hv hf
    rcases view_push_inv hF hv with ⟨-, h⟩ | ⟨rfl, rfl⟩
    · exact hF.flips p v fl h hf
    · exact hfl fl hf
  · intro p v hv hf
    rcases view_push_inv hF hv with ⟨-, h⟩ | ⟨rfl, rfl⟩
    · exact hF.fresh p v h hf
    · exact hfr hf

end push

/-- What all operations preserve about existing objects. -/
structure Stable (F F' : Frame V P) : Prop where
  data : F'.data = F.data
  updaters : F'.updaters = F.updaters
  length : F.objs.length ≤ F'.objs.length
  view : ∀ p v, F.view p = some v → ∃ v', F'.view p = some v' ∧ v'.assignment = v.assignment
  moved : ∀ p < F.objs.length, ∀ x, F'.moved p x ↔ F.moved p x

theorem Stable.refl (F : Frame V P) : Stable F F := ⟨rfl, rfl, le_rfl, fun _ v h => ⟨v, h, rfl⟩, fun _ _ _ => Iff.rfl⟩

theorem Stable.trans {F F' F'' : Frame V P} (h : Stable F F') (h' : Stable F' F'') : Stable F F'' := by
  refine ⟨h'.data.trans h.data, h'.updaters.trans h.updaters, h.length.trans h'.length, ?_, ?_⟩
  · intro p v hv
    obtain ⟨v', h1, h2⟩ := h.view p v hv
    obtain ⟨v'', h3, h4⟩ := h'.view p v' h1
    exact ⟨v'', h3, h4.trans h2⟩
  · intro p hp x
    rw [h'.moved p (hp.trans_le h.length), h.moved p hp]

theorem stable_push {F : Frame V P} {a : Assignment V P} {parent : Option ℕ} {flips : Option (Dict V P)}
    {flows : Option (Dict P (Flow V))} {ef : Option (Dict P (Flow (V × V)))} :
    Stable F (F.push a parent flips flows ef) :=
  ⟨rfl, rfl, by simp [Frame.push], fun p v hv => ⟨v, view_push_old hv, rfl⟩, fun p hp x => moved_push hp x⟩

theorem Correct.congr_moved {D : GraphData V} {m m' : V → Prop} (h : ∀ x, m x ↔ m' x) {a : Assignment V P} {k : Key}
    {x : Val V P} : Correct D m a k x ↔ Correct D m' a k x := by
  have : m = m' := funext fun x => propext (h x)
  rw [this]

theorem CacheInv.stable {F F' : Frame V P} (h : Stable F F') {c : Caches V P} (hc : CacheInv F c) : CacheInv F' c := by
  intro p k x hx
  obtain ⟨v, hv, hcor⟩ := hc p k x hx
  obtain ⟨v', h1, h2⟩ := h.view p v hv
  refine ⟨v', h1, ?_⟩
  rw [h.data, h2, Correct.congr_moved (h.moved p (Frame.lt_of_view hv))]
  exact hcor

theorem create_ok {F F' : Frame V P} {d : Dict V P} (hd : d.WF) (h : F.create d = .ok F') :
    ∃ a, F' = F.push a none none none none ∧ Assignment.fromDict d = .ok a ∧ a.Coherent ∧
      a.Covers F.data.graph.nodes ∧ (∀ v, a.mapping.get? v = d.get? v) := by
  unfold Frame.create at h
  rw [Py.bind_eq_ok] at h
  obtain ⟨a, ha, h⟩ := h
  obtain ⟨a', h1, h2, h3, -⟩ := fromDict_ok hd
  rw [ha] at h1; cases h1
  split at h
  · cases h
  · rename_i hk
    rw [Py.pure_eq_ok] at h
    refine ⟨a, h.symm, ha, h2, ?_, h3⟩
    intro v
    rw [not_not] at hk
    rw [← hk, List.mem_toFinset]

theorem covers_of_flip {a b : Assignment V P} {flips : Dict V P} {nodes : Finset V} (hs : FlipSpec a flips b)
    (hc : a.Covers nodes) : b.Covers nodes := by
  intro v
  rw [← hc v, ← Dict.get?_isSome_iff, ← Dict.get?_isSome_iff, hs.get?]
  rcases hv : flips.get? v with _ | p
  · simp
  · obtain ⟨q, hq⟩ := hs.known v p hv
    simp [hq]

theorem flip_frame {F : Frame V P} (hF : FrameInv F) {p : ℕ} {flips : Dict V P} (hf : flips.WF) {v : View V P}
    (hv : F.view p = some v) :
    (∀ e, v.assignment.flip flips = .error e → F.flip p flips = .error e) ∧
    (∀ b, v.assignment.flip flips = .ok b → ∃ flows ef, F.flip p flips = .ok (F.push b (some p) (some flips) (some flows) ef) ∧
      FlowsSpec v.assignment.mapping flips flows ∧
      (Key.cutEdges ∈ F.updaters → ∃ ef', ef = some ef' ∧
        EdgeFlowsSpec F.data.graph v.assignment.mapping b.mapping ef') ∧
      (Key.cutEdges ∉ F.updaters → ef = none)) := by
  constructor
  · intro e he
    unfold Assignment.flip at he
    unfold Frame.flip
    simp only [hv]
    rw [Py.bind_eq_error] at he
    simp only [bind, Except.bind] at he ⊢
    rcases he with he | ⟨flows, h1, he⟩
    · rw [he]
    · rw [h1]
      simp only
      rcases hcp : v.assignment.copy with e' | cp
      · rw [hcp] at he
        simp only [Except.error.injEq] at he ⊢
        exact he
      · rw [hcp] at he
        simp only at he ⊢
        rw [he]
  · intro b hb
    have hs := flip_ok (hF.coherent p v hv) hf hb
    unfold Assignment.flip at hb
    rw [Py.bind_eq_ok] at hb
    obtain ⟨flows, h1, hb⟩ := hb
    rw [Py.bind_eq_ok] at hb
    obtain ⟨cp, h2, hb⟩ := hb
    obtain ⟨ef, he1, he2⟩ := computeEdgeFlows_ok hF.graph (flips := flips) (old := v.assignment.mapping)
      (new := b.mapping) (fun u hu => (hF.covers p v hv u).2 hu)
      (fun u hu => (covers_of_flip hs (hF.covers p v hv) u).2 hu) (by
        intro u hu
        rw [hs.get?, Dict.get?_eq_none_iff.2 hu]; rfl)
    refine ⟨flows, if Key.cutEdges ∈ F.updaters then some ef else none, ?_, flowsFromChanges_ok hf h1, ?_, ?_⟩
    · unfold Frame.flip
      simp only [hv, bind, Except.bind, h1, h2, hb, he1]
      by_cases hu : Key.cutEdges ∈ F.updaters <;>
        simp [hu, Functor.map, Except.map, pure, Except.pure, Frame.push]
    · intro hu; exact ⟨ef, by simp [hu], he2⟩
    · intro hu; simp [hu]

theorem FrameInv.flip {F F' : Frame V P} (hF : FrameInv F) {p : ℕ} {flips : Dict V P} (hf : flips.WF)
    (h : F.flip p flips = .ok F') :
    FrameInv F' ∧ Stable F F' ∧ ∃ v b, F.view p = some v ∧ v.assignment.flip flips = .ok b ∧
      ∃ w, F'.view F.objs.length = some w ∧ w.assignment = b ∧ w.parent = some p := by
  rcases hv : F.view p with _ | v
  · exfalso
    unfold Frame.flip at h
    rw [hv] at h
    simp [bind, Except.bind] at h
  obtain ⟨h1, h2⟩ := flip_frame hF hf hv
  rcases hb : v.assignment.flip flips with e | b
  · rw [h1 e hb] at h; cases h
  obtain ⟨flows, ef, g1, g2, g3, g4⟩ := h2 b hb
  rw [g1] at h
  cases h
  have hs := flip_ok (hF.coherent p v hv) hf hb
  refine ⟨?_, stable_push, v, b, rfl, hb, _, view_push_new, rfl, rfl⟩
  refine hF.push hs.coherent (covers_of_flip hs (hF.covers p v hv)) ?_ ?_ (by intro h; cases h)
  swap
  · rintro fl hfl
    cases hfl
    exact ⟨hf, fun n r hn => by rw [hs.get?, hn]; rfl⟩
  intro q hq
  cases hq
  exact ⟨v, Frame.lt_of_view hv, view_push_old hv, flips, flows, rfl, rfl, hf, hs, g2, g3, g4⟩

theorem FrameInv.create {F F' : Frame V P} (hF : FrameInv F) {d : Dict V P} (hd : d.WF)
    (h : F.create d = .ok F') : FrameInv F' ∧ Stable F F' := by
  obtain ⟨a, rfl, h1, h2, h3, -⟩ := create_ok hd h
  refine ⟨hF.push h2 h3 (by intro q hq; cases hq) (by intro fl hfl; cases hfl) ?_, stable_push⟩
  intro _
  refine ⟨rfl, fun part s hs => ?_⟩
  obtain ⟨a', h1', -, -, h4⟩ := fromDict_ok hd
  rw [h1] at h1'
  cases h1'
  rw [h4] at hs
  obtain ⟨v, hv⟩ := (mem_keys_levelSets hd).1 (Dict.mem_keys_iff.2 ⟨s, hs⟩)
  exact ⟨v, (mem_levelSets hd hs v).2 hv⟩

theorem view_eraseParent {F : Frame V P} {p q : ℕ} {v : View V P} (hv : F.view q = some v) :
    (F.eraseParent p).view q = some (if q = p then { v with parent := none } else v) := by
  unfold Frame.eraseParent
  rcases ho : F.objs[p]? with _ | o
  · simp only
    rw [if_neg]
    · exact hv
    · rintro rfl
      obtain ⟨o', ho', -⟩ := Frame.view_eq_some hv
      rw [ho] at ho'; cases ho'
  · simp only
    obtain ⟨o', h1, h2, h3, h4, h5, h6, h7⟩ := Frame.view_eq_some hv
    have hp : p < F.objs.length := by
      by_contra hc
      rw [List.getElem?_eq_none (by omega)] at ho; cases ho
    unfold Frame.view
    obtain ⟨⟨_, _⟩, _, _, _, _⟩ := v
    by_cases hpq : q = p
    · subst hpq
      rw [ho] at h1
      cases h1
      simp only at h2 h3 h4 h5 h6 h7
      simp [List.getElem?_set_self hp, h2, h3, h5, h6, h7]
    · simp only at h2 h3 h4 h5 h6 h7
      simp [List.getElem?_set_ne (Ne.symm hpq), h1, h2, h3, h4, h5, h6, h7, hpq]

theorem length_eraseParent {F : Frame V P} {p : ℕ} : (F.eraseParent p).objs.length = F.objs.length := by
  unfold Frame.eraseParent
  split <;> simp

theorem moved_eraseParent {F : Frame V P} {p q : ℕ} (x : V) : (F.eraseParent p).moved q x ↔ F.moved q x := by
  unfold Frame.moved Frame.eraseParent
  rcases ho : F.objs[p]? with _ | o
  · exact Iff.rfl
  · have hp : p < F.objs.length := by
      by_contra hc
      rw [List.getElem?_eq_none (by omega)] at ho; cases ho
    simp only
    constructor
    · rintro ⟨i, hi, o', ho', h⟩
      by_cases hip : i = p
      · subst hip
        rw [List.getElem?_set_self hp] at ho'
        cases ho'
        exact ⟨i, hi, o, ho, h⟩
      · rw [List.getElem?_set_ne (Ne.symm hip)] at ho'
        exact ⟨i, hi, o', ho', h⟩
    · rintro ⟨i, hi, o', ho', h⟩
      by_cases hip : i = p
      · subst hip
        rw [ho] at ho'
        cases ho'
        exact ⟨i, hi, _, List.getElem?_set_self hp, h⟩
      · exact ⟨i, hi, o', by rw [List.getElem?_set_ne (Ne.symm hip)]; exact ho', h⟩

theorem data_eraseParent {F : Frame V P} {p : ℕ} : (F.eraseParent p).data = F.data ∧
    (F.eraseParent p).updaters = F.updaters ∧ (F.eraseParent p).partsCells = F.partsCells ∧
    (F.eraseParent p).mapCells = F.mapCells := by
  unfold Frame.eraseParent
  split <;> simp

theorem FrameInv.eraseParent {F : Frame V P} (hF : FrameInv F) (p : ℕ) :
    FrameInv (F.eraseParent p) ∧ Stable F (F.eraseParent p) := by
  obtain ⟨d1, d2, d3, d4⟩ := data_eraseParent (F := F) (p := p)
  have hinv : ∀ q v', (F.eraseParent p).view q = some v' → ∃ v, F.view q = some v ∧
      v' = if q = p then { v with parent := none } else v := by
    intro q v' hv'
    have hq := Frame.lt_of_view hv'
    rw [length_eraseParent] at hq
    obtain ⟨v, hv⟩ := hF.exists_view hq
    refine ⟨v, hv, ?_⟩
    rw [view_eraseParent hv] at hv'
    exact (Option.some.inj hv').symm
  refine ⟨⟨?_, ?_, ?_, ?_, ?_, ?_, ?_⟩, ?_⟩
  · rw [d1]; exact hF.graph
  · intro q o ho
    rw [d3, d4]
    unfold Frame.eraseParent at ho
    rcases ho' : F.objs[p]? with _ | o'
    · rw [ho'] at ho; exact hF.refs q o ho
    · rw [ho'] at ho
      simp only at ho
      by_cases hq : q = p
      · subst hq
        have hp : q < F.objs.length := by
          by_contra hc
          rw [List.getElem?_eq_none (by omega)] at ho'; cases ho'
        rw [List.getElem?_set_self hp] at ho
        cases ho
        exact hF.refs q o' ho'
      · rw [List.getElem?_set_ne (Ne.symm hq)] at ho
        exact hF.refs q o ho
  · intro q v' hv'
    obtain ⟨v, hv, rfl⟩ := hinv q v' hv'
    have := hF.coherent q v hv
    split <;> exact this
  · intro q v' hv'
    obtain ⟨v, hv, rfl⟩ := hinv q v' hv'
    have := hF.covers q v hv
    rw [d1]
    split <;> exact this
  · intro q v' r hv' hr
    obtain ⟨v, hv, rfl⟩ := hinv q v' hv'
    split at hr
    · cases hr
    · rename_i hq
      obtain ⟨w, hw⟩ := hF.link q v r hv hr
      rw [if_neg hq]
      refine ⟨_, hw.lt, view_eraseParent hw.view, ?_⟩
      rw [d1, d2]
      have := hw.ex
      split <;> exact this
  · intro q v' fl hv' hfl
    obtain ⟨v, hv, rfl⟩ := hinv q v' hv'
    have hfl' : v.flips = some fl := by split at hfl <;> exact hfl
    have := hF.flips q v fl hv hfl'
    split <;> exact this
  · intro q v' hv' hfl
    obtain ⟨v, hv, rfl⟩ := hinv q v' hv'
    have hfl' : v.flips = none := by split at hfl <;> exact hfl
    have := hF.fresh q v hv hfl'
    split
    · exact ⟨rfl, this.2⟩
    · exact this
  · refine ⟨d1, d2, by rw [length_eraseParent], ?_, fun q _ x => moved_eraseParent x⟩
    intro q v hv
    refine ⟨_, view_eraseParent hv, ?_⟩
    split <;> rfl

/-! ### Whole histories -/

/-- The dictionaries passed by the caller have unique keys (guaranteed by python). -/
def Op.WF : Op V P → Prop
  | .create d => d.WF
  | .flip _ f => f.WF
  | _ => True

/-- Heap invariant. -/
structure HeapInv (H : Heap V P) : Prop where
  frame : FrameInv H.frame
  caches : CacheInv H.frame H.caches

theorem getitem_caches {F : Frame V P} (hF : FrameInv F) (limit : ℕ) (k : Key) (p : ℕ) {c : Caches V P}
    (hc : CacheInv F c) : CacheInv F (getitem F limit k p c).2 := by
  have := getitem_sat hF limit k p c hc
  revert this
  rcases getitem F limit k p c with ⟨_ | a, s'⟩
  · exact fun h => h.1
  · exact fun h => h.1

theorem HeapInv.step {H : Heap V P} (h : HeapInv H) {op : Op V P} (hop : op.WF) :
    HeapInv (H.step op) ∧ Stable H.frame (H.step op).frame := by
  cases op with
  | create d =>
    unfold Heap.step
    simp only
    rcases hr : H.frame.create d with e | F
    · exact ⟨h, Stable.refl _⟩
    · obtain ⟨h1, h2⟩ := h.frame.create hop hr
      exact ⟨⟨h1, h.caches.stable h2⟩, h2⟩
  | flip p f =>
    unfold Heap.step
    simp only
    rcases hr : H.frame.flip p f with e | F
    · exact ⟨h, Stable.refl _⟩
    · obtain ⟨h1, h2, -⟩ := h.frame.flip hop hr
      exact ⟨⟨h1, h.caches.stable h2⟩, h2⟩
  | lookup p k limit =>
    exact ⟨⟨h.frame, getitem_caches h.frame limit k p h.caches⟩, Stable.refl _⟩
  | eraseParent p =>
    obtain ⟨h1, h2⟩ := h.frame.eraseParent p
    exact ⟨⟨h1, h.caches.stable h2⟩, h2⟩

theorem HeapInv.run {H : Heap V P} (h : HeapInv H) {ops : List (Op V P)} (hops : ∀ op ∈ ops, op.WF) :
    HeapInv (H.run ops) ∧ Stable H.frame (H.run ops).frame := by
  induction ops generalizing H with
  | nil => exact ⟨h, Stable.refl _⟩
  | cons op ops ih =>
    obtain ⟨h1, h2⟩ := h.step (hops op List.mem_cons_self)
    obtain ⟨h3, h4⟩ := ih h1 (fun op hop => hops op (List.mem_cons_of_mem _ hop))
    exact ⟨h3, h2.trans h4⟩

theorem heapInv_start {D : GraphData V} (hD : D.graph.WF) (ups : List Key) : HeapInv (Heap.start D ups : Heap V P) := by
  refine ⟨⟨hD, ?_, ?_, ?_, ?_, ?_, ?_⟩, ?_⟩
  · intro p o h; simp [Heap.start] at h
  · intro p v h; simp [Heap.start, Frame.view] at h
  · intro p v h; simp [Heap.start, Frame.view] at h
  · intro p v q h; simp [Heap.start, Frame.view] at h
  · intro p v fl h; simp [Heap.start, Frame.view] at h
  · intro p v h; simp [Heap.start, Frame.view] at h
  · intro p k x h; simp [Heap.start] at h

end GC

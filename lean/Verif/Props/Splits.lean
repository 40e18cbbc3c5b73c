import Verif.Model.Splits
import Verif.Lemmas.Splits
import Verif.Props.ChainInvariant

/-!
# C28, C29: split counties and regions
-/

set_option linter.unusedSectionVars false
set_option autoImplicit false

namespace GC

variable {V P X : Type} [LinearOrder V] [DecidableEq P]

/-- County (region, locality) `c` has nodes in two different districts. -/
def SplitCounty (nodes : Finset V) (county : V → String) (a : Assignment V P) (c : String) : Prop :=
  ∃ x ∈ nodes, ∃ y ∈ nodes, county x = c ∧ county y = c ∧ a.mapping.get? x ≠ a.mapping.get? y

theorem CountiesOK.card_iff {nodes : Finset V} {county : V → String} {a : Assignment V P} (hcov : a.Covers nodes)
    {d : Dict String (CountyInfo V P)}
    (h : CountiesOK nodes county a d) {c : String} {i : CountyInfo V P} (hi : d.get? c = some i) :
    1 < i.contains.card ↔ SplitCounty nodes county a c := by
  rw [Finset.one_lt_card]
  constructor
  · rintro ⟨p, hp, q, hq, hne⟩
    obtain ⟨x, hx, hxc, hxp⟩ := (h.contains c i hi p).1 hp
    obtain ⟨y, hy, hyc, hyq⟩ := (h.contains c i hi q).1 hq
    refine ⟨x, hx, y, hy, hxc, hyc, ?_⟩
    rw [hxp, hyq]
    simpa using hne
  · rintro ⟨x, hx, y, hy, hxc, hyc, hne⟩
    obtain ⟨p, hp⟩ := Dict.mem_keys_iff.1 ((hcov x).2 hx)
    obtain ⟨q, hq⟩ := Dict.mem_keys_iff.1 ((hcov y).2 hy)
    refine ⟨p, (h.contains c i hi p).2 ⟨x, hx, hxc, hp⟩, q, (h.contains c i hi q).2 ⟨y, hy, hyc, hq⟩, ?_⟩
    rintro rfl
    exact hne (hp.trans hq.symm)

theorem SplitCounty.exists_info {nodes : Finset V} {county : V → String} {a b : Assignment V P} {d : Dict String (CountyInfo V P)}
    (h : CountiesOK nodes county a d) {c : String} (hs : SplitCounty nodes county b c) : ∃ i, d.get? c = some i := by
  obtain ⟨x, hx, -, -, hxc, -⟩ := hs
  exact Dict.mem_keys_iff.1 ((h.keys c).2 ⟨x, hx, hxc⟩)

/-- The cached county information is right. -/
theorem HeapInv.counties {H : Heap V P} (h : HeapInv H) {p : ℕ} {f : String} {v : View V P}
    {d : Dict String (CountyInfo V P)} (hv : H.frame.view p = some v)
    (hd : (H.caches p).get? (.countySplits f) = some (.counties d)) :
    CountiesOK H.frame.data.graph.nodes (H.frame.data.region f) v.assignment d := by
  obtain ⟨w, hw, hc⟩ := h.caches _ _ _ hd
  rw [hv] at hw
  cases hw
  obtain ⟨d', e1, e2⟩ := hc.countySplits
  cases e1
  exact e2

/-- A partition of a nonempty graph is truthy, so a child uses its parent. -/
theorem truthyParent_of_nodes {F : Frame V P} (hF : FrameInv F) {p q : ℕ} {v : View V P} (hv : F.view p = some v)
    (hq : v.parent = some q) {x : V} (hx : x ∈ F.data.graph.nodes) : F.truthyParent v = some q := by
  obtain ⟨w, hw⟩ := hF.link p v q hv hq
  unfold Frame.truthyParent
  rw [hq]
  simp only [hw.view]
  have hcoh := hF.coherent q w hw.view
  obtain ⟨part, hpart⟩ := Dict.mem_keys_iff.1 ((hF.covers q w hw.view x).2 hx)
  have := hcoh.complete x part hpart
  rw [if_neg]
  intro h0
  unfold Dict.keys at this
  rw [List.isEmpty_iff.1 h0] at this
  simp at this

/-- Flags of a child, from the cached information of its parent. -/
theorem flag_step {H : Heap V P} {f : String} (h : HeapInv H) (hf : FlagInv f H.frame H.caches) {p q : ℕ} {v w : View V P}
    (hv : H.frame.view p = some v) (hq : v.parent = some q) (hw : H.frame.view q = some w)
    {d : Dict String (CountyInfo V P)} (hd : (H.caches p).get? (.countySplits f) = some (.counties d))
    {c : String} {i : CountyInfo V P} (hi : d.get? c = some i) :
    ∃ d' i', (H.caches q).get? (.countySplits f) = some (.counties d') ∧ d'.get? c = some i' ∧
      (i.split = .newSplit ↔ SplitCounty H.frame.data.graph.nodes (H.frame.data.region f) v.assignment c ∧ i'.split ≠ .oldSplit) ∧
      (i'.split = .notSplit ↔ ¬ SplitCounty H.frame.data.graph.nodes (H.frame.data.region f) w.assignment c) := by
  have hok := h.counties hv hd
  obtain ⟨x, hx, -⟩ := (hok.keys c).1 (Dict.mem_keys_iff.2 ⟨i, hi⟩)
  have ht := truthyParent_of_nodes h.frame hv hq hx
  obtain ⟨d', h1, h2⟩ := hf p v q d hv ht hd
  have hok' := h.counties hw h1
  obtain ⟨d2, g1, g2, g3⟩ := countySplitsStep_ok (h.frame.covers p v hv) hok'
  rw [h2] at g1
  cases g1
  obtain ⟨i', hi', hiff⟩ := g3 c i hi
  refine ⟨d', i', h1, hi', ?_, ?_⟩
  · rw [hiff, hok.card_iff (h.frame.covers p v hv) hi]
  · rw [hok'.split c i' hi', ← hok'.card_iff (h.frame.covers q w hw) hi']
    omega

theorem noNewSplits_iff {d : Dict String (CountyInfo V P)} (hd : d.WF) :
    noNewSplits d = true ↔ ∀ c i, d.get? c = some i → i.split ≠ .newSplit := by
  unfold noNewSplits
  rw [List.all_eq_true]
  constructor
  · intro h c i hi
    simpa using h i ((Dict.mem_values_iff hd).2 ⟨c, hi⟩)
  · intro h i hi
    obtain ⟨c, hc⟩ := (Dict.mem_values_iff hd).1 hi
    simpa using h c i hc

theorem FlagInv.reaches {f : String} {s s' : World V P X} (hs : HeapInv s.1) (hf : FlagInv f s.1.frame s.1.caches)
    (h : Reaches s s') : FlagInv f s'.1.frame s'.1.caches := by
  obtain ⟨ops, h1, h2⟩ := h
  rw [h2]
  exact hf.run hs h1

theorem FlagInv.after {D : GraphData V} {ups : List Key} {f : String} {ops : List (Op V P)} (hD : D.graph.WF)
    (hops : ∀ op ∈ ops, op.WF) : FlagInv f (Heap.after D ups ops).frame (Heap.after D ups ops).caches := by
  refine FlagInv.run (H := Heap.start D ups) (heapInv_start (P := P) hD ups) ?_ hops
  intro p v q d hv
  simp [Heap.start, Frame.view] at hv

theorem Reaches.cached {s s' : World V P X} (hs : HeapInv s.1) (h : Reaches s s') {p : ℕ} {k : Key}
    {d : Dict String (CountyInfo V P)} (hd : (s.1.caches p).get? k = some (.counties d)) :
    (s'.1.caches p).get? k = some (.counties d) := by
  obtain ⟨ops, h1, h2⟩ := h
  rw [h2]
  exact (run_grows hs h1).counties hd

/-! ### C28 -/

/-- What holds of every state of a chain constrained by `refuse_new_splits`: no county is flagged as newly split, and only
counties in `old` are split. -/
def GoodSplits (f : String) (old : String → Prop) (s : World V P X) (r : ℕ) : Prop :=
  FlagInv f s.1.frame s.1.caches ∧ ∃ v d, s.1.frame.view r = some v ∧
    (s.1.caches r).get? (.countySplits f) = some (.counties d) ∧
    (∀ c i, d.get? c = some i → i.split ≠ .newSplit) ∧
    ∀ c, SplitCounty s.1.frame.data.graph.nodes (s.1.frame.data.region f) v.assignment c → old c

theorem GoodSplits.stable {f : String} {old : String → Prop} {s s' : World V P X} {r : ℕ} (hs : HeapInv s.1)
    (h : Reaches s s') (hg : GoodSplits f old s r) : GoodSplits f old s' r := by
  obtain ⟨h0, v, d, h1, h2, h3, h4⟩ := hg
  obtain ⟨-, hst⟩ := h.stable hs
  obtain ⟨v', g1, g2⟩ := hst.view r v h1
  exact ⟨h0.reaches hs h, v', d, g1, h.cached hs h2, h3, by rw [hst.data, g2]; exact h4⟩

/-- When the constraint answers `True`, the county information is cached and has no flag NEW. -/
theorem refuse_true {limit : ℕ} {f : String} {r : ℕ} {s s' : World V P X} (hs : HeapInv s.1) {x : CVal}
    (h : (refuseNewSplits limit f).call r s = (.ok x, s')) (hx : x.IsBool true) :
    ∃ d, (s'.1.caches r).get? (.countySplits f) = some (.counties d) ∧ (∀ c i, d.get? c = some i → i.split ≠ .newSplit) ∧
      s'.1 = s.1.step (.lookup r (.countySplits f) limit) := by
  unfold refuseNewSplits at h
  simp only [Prod.mk.injEq] at h
  obtain ⟨h1, rfl⟩ := h
  rcases hg : (getitem s.1.frame limit (.countySplits f) r s.1.caches).1 with e | y
  · rw [hg] at h1; cases h1
  · rw [hg] at h1
    have hc := getitem_cached hg
    rcases y with _ | _ | _ | _ | _ | _ | _ | d <;> simp only at h1 <;> try (cases h1)
    refine ⟨d, hc, ?_, rfl⟩
    have hwf : d.WF := by
      have hi := (hs.step (op := .lookup r (.countySplits f) limit) trivial).1
      obtain ⟨w, hw, hcor⟩ := hi.caches _ _ _ hc
      obtain ⟨d', e1, e2⟩ := hcor.countySplits
      cases e1
      exact e2.wf
    rw [← noNewSplits_iff hwf]
    rcases hx with hx | hx
    · simpa using hx
    · cases hx

/-- **C28.** A chain with the constraint `refuse_new_splits` (anywhere in the list) yields only partitions that split
counties already split in the initial partition: for every graph, county labels, flip proposal, other constraints,
acceptance function and run. -/
theorem C28_no_new_splits {c : ChainCfg (World V P X) ℕ} {D : GraphData V} {ups : List Key} {ops : List (Op V P)}
    (hD : D.graph.WF) (hops : ∀ op ∈ ops, op.WF) (cs : List (Constraint (World V P X) ℕ)) (h : HeapChain c cs)
    {limit : ℕ} {f : String} (hcon : refuseNewSplits limit f ∈ cs)
    (x : X) {v0 : View V P} (hv0 : (Heap.after D ups ops).frame.view c.initial = some v0)
    {ch : Chain (World V P X) ℕ} {s0 : World V P X} (hinit : Chain.init c cs (Heap.after D ups ops, x) = (.ok ch, s0))
    {fuel body : ℕ} {s' : World V P X} {ys : List ℕ} {ch' : Chain (World V P X) ℕ}
    (hl : ch.list c fuel body s0 = some (.ok ys, ch', s')) :
    ∀ y ∈ ys, ∃ v, s'.1.frame.view y = some v ∧
      ∀ county, SplitCounty D.graph.nodes (D.region f) v.assignment county →
        SplitCounty D.graph.nodes (D.region f) v0.assignment county := by
  obtain ⟨hi, hd, -⟩ := after_inv (P := P) (ups := ups) hD hops
  have hchk : validator c.initial cs (Heap.after D ups ops, x) = (.ok true, s0) ∧ ch = ⟨cs, none, c.initial⟩ := by
    unfold Chain.init checkInitial at hinit
    rcases hv : validator c.initial cs (Heap.after D ups ops, x) with ⟨e | (_ | _), s2⟩ <;> rw [hv] at hinit <;>
      simp only at hinit
    · simp at hinit
    · rcases hf : failedConstraints c.initial cs s2 with ⟨e | l, s3⟩ <;> rw [hf] at hinit <;> simp at hinit
    · simp only [Prod.mk.injEq, Except.ok.injEq] at hinit
      obtain ⟨rfl, rfl⟩ := hinit
      exact ⟨rfl, rfl⟩
  obtain ⟨hval, rfl⟩ := hchk
  have hpass := (C19_validator_true _ _ _ _).1 hval
  have hr0 := allPass_reaches h.constraint hpass
  let old := SplitCounty D.graph.nodes (D.region f) v0.assignment
  have hg0 : GoodSplits f old s0 c.initial := by
    obtain ⟨s2, s2', v, e1, e2, e3, e4, e5, e6⟩ := allPass_world h.constraint hpass hcon
    have hi2 := e2.inv hi
    obtain ⟨d, g1, g2, g3⟩ := refuse_true hi2 e3 e4
    have hr2 : Reaches s2 s2' := by
      have := (h.constraint _ hcon c.initial).reaches s2
      rw [e3] at this; exact this
    obtain ⟨v', k1, k2⟩ := (hr0.stable hi).2.view _ _ hv0
    refine ⟨FlagInv.reaches hi (FlagInv.after hD hops) hr0, v', d, k1, e6.cached (hr2.inv hi2) g1, g2, ?_⟩
    rw [(hr0.stable hi).2.data, k2]
    simp only [hd]
    exact fun c hc => hc
  have hi0 := hr0.inv hi
  have hlt : c.initial < s0.1.frame.objs.length := by
    obtain ⟨-, v, d, hv, -⟩ := hg0
    exact Frame.lt_of_view hv
  have key := collect_good (ch := Chain.iter c ⟨cs, none, c.initial⟩) (k := 0) h (GoodSplits f old)
    (fun s s' r a b c => GoodSplits.stable a b c) ?_ hi0 hlt hg0 rfl hl
  · intro y hy
    obtain ⟨-, v, d, h1, -, -, h2⟩ := key y hy
    refine ⟨v, h1, ?_⟩
    obtain ⟨g1, g2⟩ := hr0.stable hi
    obtain ⟨vi, hvi⟩ := hi0.frame.exists_view hlt
    have hf := collect_history (ch := Chain.iter c ⟨cs, none, c.initial⟩) (k := 0) h hi0 (v := vi) hvi rfl hl
    obtain ⟨-, g4⟩ := hf.1.stable hi0
    rw [g4.data, g2.data] at h2
    simp only at h2
    rw [hd] at h2
    exact h2
  · intro st q s s1 s3 hs hst hg hp hpass'
    have hch := proposal_erased h hs hst hp
    obtain ⟨s2, s2', v, e1, e2, e3, e4, e5, e6⟩ := allPass_world h.constraint hpass' hcon
    have hi2 := e2.inv hch.inv
    obtain ⟨d, g1, g2, g3⟩ := refuse_true hi2 e3 e4
    have hr2 : Reaches s2 s2' := by
      have := (h.constraint _ hcon q).reaches s2
      rw [e3] at this; exact this
    have hi2' := hr2.inv hi2
    refine GoodSplits.stable hi2' e6 ?_
    have hgs := GoodSplits.stable hs ((hch.before.trans e2).trans hr2) hg
    rcases hch.child with rfl | ⟨vq, hvq, hpar⟩
    · exact hgs
    · have hvq' : s2'.1.frame.view q = some vq := by
        rw [g3]
        show s2.1.frame.view q = some vq
        rw [e1]; exact hvq
      obtain ⟨hfl, w, dw, hw, hcw, hnw, how⟩ := hgs
      refine ⟨hfl, vq, d, hvq', g1, g2, ?_⟩
      intro county hcounty
      have hok := hi2'.counties hvq' g1
      obtain ⟨i, hci⟩ := hcounty.exists_info hok
      obtain ⟨d', i', j1, j2, j3, j4⟩ := flag_step hi2' hfl hvq' hpar hw g1 hci
      rw [hcw] at j1
      cases j1
      apply how
      by_contra hns
      have hnot := j4.2 hns
      exact g2 county i hci (j3.2 ⟨hcounty, by rw [hnot]; simp⟩)

/-- **C28 (flags, partial).** In every history: a county of a partition whose parent link is kept is flagged NEW exactly if it
is split now and not flagged OLD in the parent; when the parent has no county flagged NEW (as in a chain constrained by
`refuse_new_splits`) this says: split now and not split before.  Missing: the flag of a county that was flagged NEW in the
parent (see `C28_new_stays_new`). -/
theorem C28_flag_partial {D : GraphData V} {ups : List Key} {ops : List (Op V P)} (hD : D.graph.WF)
    (hops : ∀ op ∈ ops, op.WF) {p q : ℕ} {v w : View V P} (hv : (Heap.after D ups ops).frame.view p = some v)
    (hq : v.parent = some q) (hw : (Heap.after D ups ops).frame.view q = some w) {f : String} {limit limit' : ℕ}
    {d d' : Dict String (CountyInfo V P)}
    (hd' : (Heap.after D ups ops).lookup q (.countySplits f) limit' = .ok (.counties d'))
    (hd : ((Heap.after D ups ops).step (.lookup q (.countySplits f) limit')).lookup p (.countySplits f) limit = .ok (.counties d))
    {c : String} {i : CountyInfo V P} (hi : d.get? c = some i) :
    ∃ i', d'.get? c = some i' ∧
      (i.split = .newSplit ↔ SplitCounty D.graph.nodes (D.region f) v.assignment c ∧ i'.split ≠ .oldSplit) ∧
      (i'.split ≠ .newSplit → (i.split = .newSplit ↔ SplitCounty D.graph.nodes (D.region f) v.assignment c ∧
        ¬ SplitCounty D.graph.nodes (D.region f) w.assignment c)) := by
  obtain ⟨hinv, hdat, -⟩ := after_inv (P := P) (ups := ups) hD hops
  have hfl := FlagInv.after (f := f) (P := P) (ups := ups) hD hops
  set H := Heap.after D ups ops with hH
  have hs1 := (hinv.step (op := .lookup q (.countySplits f) limit') trivial).1
  have hf1 := hfl.step hinv (.lookup q (.countySplits f) limit') trivial
  set H1 := H.step (.lookup q (.countySplits f) limit') with hH1
  have hc1 : (H1.caches q).get? (.countySplits f) = some (.counties d') := getitem_cached hd'
  have hs2 := (hs1.step (op := .lookup p (.countySplits f) limit) trivial).1
  have hf2 := hf1.step hs1 (.lookup p (.countySplits f) limit) trivial
  have hle := step_grows hs1 (.lookup p (.countySplits f) limit)
  set H2 := H1.step (.lookup p (.countySplits f) limit) with hH2
  have hc2 : (H2.caches p).get? (.countySplits f) = some (.counties d) := getitem_cached hd
  have hc1' := hle.counties hc1
  have hF : H2.frame = H.frame := rfl
  obtain ⟨d2, i', j1, j2, j3, j4⟩ := flag_step (H := H2) hs2 hf2 hv hq hw hc2 hi
  rw [hc1'] at j1
  cases j1
  rw [hF, hdat] at j3 j4
  refine ⟨i', j2, j3, ?_⟩
  intro hnn
  rw [j3]
  constructor
  · rintro ⟨a, b⟩
    refine ⟨a, ?_⟩
    rw [← j4]
    rcases h' : i'.split <;> simp_all
  · rintro ⟨a, b⟩
    refine ⟨a, ?_⟩
    rw [j4.2 b]
    simp

/-- A partition without parent never has a county flagged NEW: OLD iff split, otherwise NOT. -/
theorem C28_initial_flags {nodes : Finset V} {county : V → String} {a : Assignment V P} (hc : a.Covers nodes) :
    ∃ d, countySplitsInit nodes county a.mapping = .ok d ∧ ∀ c i, d.get? c = some i →
      (i.split = .oldSplit ↔ SplitCounty nodes county a c) ∧ (i.split = .notSplit ↔ ¬ SplitCounty nodes county a c) := by
  obtain ⟨d, h1, h2, h3⟩ := countySplitsInit_ok (county := county) hc
  refine ⟨d, h1, ?_⟩
  intro c i hi
  have g1 := h2.split c i hi
  have g2 := h3 c i hi
  have g3 := h2.card_iff hc hi
  constructor
  · rw [← g3]
    constructor
    · intro h
      by_contra hn
      rw [g1.2 (by omega)] at h
      cases h
    · intro h
      rcases hs : i.split
      · have := g1.1 hs; omega
      · exact absurd hs g2
      · rfl
  · rw [g1, ← g3]
    omega

/-! #### examples and counterexamples -/

/-- the flags in the answer of a lookup -/
def flagsOf (x : Py (Val ℕ ℕ)) : Option (List (String × CountySplit)) :=
  match x with
  | .ok (.counties d) => some (d.entries.map (fun e => (e.1, e.2.split)))
  | _ => none

/-- **C28 is violated (flags)**: county A is split by the first flip (NEW) and stays split in the next partition, where it is
flagged NEW again although it was split before. -/
theorem C28_new_stays_new :
    flagsOf ((Heap.after exData exUps [.create exDict, .flip 0 ⟨[(1, 2)]⟩, .flip 1 ⟨[(3, 2)]⟩]).lookup 1 (.countySplits "county") 9)
      = some [("A", .newSplit), ("B", .notSplit)] ∧
    flagsOf ((Heap.after exData exUps [.create exDict, .flip 0 ⟨[(1, 2)]⟩, .flip 1 ⟨[(3, 2)]⟩]).lookup 2 (.countySplits "county") 9)
      = some [("A", .newSplit), ("B", .notSplit)] := by
  constructor <;> decide +kernel

/-- **C28 is violated (flags)**: when the parent link is erased before the flags are first looked up, a newly split county is
flagged OLD. -/
theorem C28_erased_parent :
    flagsOf ((Heap.after exData exUps [.create exDict, .flip 0 ⟨[(1, 2)]⟩, .eraseParent 1]).lookup 1 (.countySplits "county") 9)
      = some [("A", .oldSplit), ("B", .notSplit)] := by
  decide +kernel

theorem exRefuseChain : HeapChain exHeapCfg [refuseNewSplits 100 "county"] := by
  refine ⟨rfl, tapeProposal_flip, ?_, fun r s => ⟨[], by simp, rfl⟩⟩
  intro con hc r s
  simp only [List.mem_singleton] at hc
  subst hc
  exact ⟨[.lookup r (.countySplits "county") 100], by simp [Op.IsLookup], rfl⟩

/-- The hypotheses of C28 are met and the chain runs: node 0 joins district 2 (county A is then whole); splitting A again
is refused twice. -/
example : ((Chain.init exHeapCfg [refuseNewSplits 100 "county"]
      (Heap.after exData exUps [.create ⟨[(0, 1), (1, 2), (2, 2), (3, 2)]⟩], [(0, 2), (0, 1), (1, 1)])).1.map
      (fun ch => ch.state)) = .ok 0 ∧
    (((Chain.list exHeapCfg 9 9 ⟨[refuseNewSplits 100 "county"], none, 0⟩
      (Heap.after exData exUps [.create ⟨[(0, 1), (1, 2), (2, 2), (3, 2)]⟩], [(0, 2), (0, 1), (1, 1)])).map (fun r => r.1)) =
    some (.ok [0, 1, 1, 1])) := by
  constructor <;> decide +kernel

/-! ### C29 -/

/-- The dictionary counts something positive exactly for the region names satisfying `Q`. -/
structure Marks (nodes : Finset V) (region : V → String) (split : Dict String ℕ) (Q : String → Prop) : Prop where
  wf : split.WF
  keys : ∀ c, c ∈ split.keys ↔ c ∈ nodes.image region
  pos : ∀ c x, split.get? c = some x → (0 < x ↔ Q c)

theorem regSplit_fold {nodes : Finset V} {region : V → String} {m : Dict V P} (hm : ∀ v ∈ nodes, v ∈ m.keys)
    (l : List (V × V)) (hl : ∀ e ∈ l, e.1 ∈ nodes ∧ e.2 ∈ nodes) (split : Dict String ℕ) (Q : String → Prop)
    (h : Marks nodes region split Q) :
    ∃ split', l.foldlM (regSplitStep region m) split = .ok split' ∧
      Marks nodes region split' (fun c => Q c ∨ ∃ e ∈ l, m.get? e.1 ≠ m.get? e.2 ∧ region e.1 = c ∧ region e.2 = c) := by
  induction l generalizing split Q with
  | nil => exact ⟨split, rfl, h.wf, h.keys, by simpa using h.pos⟩
  | cons e l ih =>
    obtain ⟨h1, h2⟩ := hl e List.mem_cons_self
    obtain ⟨a, ha⟩ := Dict.mem_keys_iff.1 (hm _ h1)
    obtain ⟨b, hb⟩ := Dict.mem_keys_iff.1 (hm _ h2)
    have hl' : ∀ e ∈ l, e.1 ∈ nodes ∧ e.2 ∈ nodes := fun e he => hl e (List.mem_cons_of_mem _ he)
    rw [List.foldlM_cons]
    unfold regSplitStep
    rw [Dict.get_eq_ok_iff.2 ha, Dict.get_eq_ok_iff.2 hb]
    simp only [bind, Except.bind]
    by_cases hc : a ≠ b ∧ region e.1 = region e.2
    · rw [if_pos hc]
      have hk : region e.1 ∈ split.keys := (h.keys _).2 (Finset.mem_image_of_mem _ h1)
      obtain ⟨x, hx⟩ := Dict.mem_keys_iff.1 hk
      rw [Dict.get_eq_ok_iff.2 hx]
      simp only
      rw [← hc.2, Dict.get_eq_ok_iff.2 (Dict.get?_set_self _ _ _)]
      simp only [pure, Except.pure]
      have hM : Marks nodes region ((split.set (region e.1) (x + 1)).set (region e.1) (x + 1 + 1))
          (fun c => Q c ∨ c = region e.1) := by
        refine ⟨(h.wf.set _ _).set _ _, ?_, ?_⟩
        · intro c
          rw [Dict.mem_keys_set, Dict.mem_keys_set, ← h.keys]
          constructor
          · rintro (rfl | rfl | h) <;> assumption
          · intro h; exact .inr (.inr h)
        · intro c y hy
          by_cases hcc : c = region e.1
          · subst hcc
            rw [Dict.get?_set_self] at hy
            cases hy
            simp
          · rw [Dict.get?_set_ne _ _ hcc, Dict.get?_set_ne _ _ hcc] at hy
            rw [h.pos c y hy]
            simp [hcc]
      obtain ⟨split', g1, g2⟩ := ih hl' _ _ hM
      refine ⟨split', g1, g2.wf, g2.keys, ?_⟩
      intro c y hy
      rw [g2.pos c y hy]
      constructor
      · rintro ((hq | rfl) | ⟨e', he', hr⟩)
        · exact .inl hq
        · exact .inr ⟨e, List.mem_cons_self, by rw [ha, hb]; simpa using hc.1, rfl, hc.2.symm⟩
        · exact .inr ⟨e', List.mem_cons_of_mem _ he', hr⟩
      · rintro (hq | ⟨e', he', hr⟩)
        · exact .inl (.inl hq)
        · rcases List.mem_cons.1 he' with rfl | he'
          · exact .inl (.inr hr.2.1.symm)
          · exact .inr ⟨e', he', hr⟩
    · rw [if_neg hc]
      simp only [pure, Except.pure]
      obtain ⟨split', g1, g2⟩ := ih hl' _ _ h
      refine ⟨split', g1, g2.wf, g2.keys, ?_⟩
      intro c y hy
      rw [g2.pos c y hy]
      constructor
      · rintro (hq | ⟨e', he', hr⟩)
        · exact .inl hq
        · exact .inr ⟨e', List.mem_cons_of_mem _ he', hr⟩
      · rintro (hq | ⟨e', he', hr⟩)
        · exact .inl hq
        · rcases List.mem_cons.1 he' with rfl | he'
          · refine absurd ⟨?_, hr.2.1.trans hr.2.2.symm⟩ hc
            have := hr.1
            rw [ha, hb] at this
            simpa using this
          · exact .inr ⟨e', he', hr⟩

open Classical in
theorem Marks.count {nodes : Finset V} {region : V → String} {split : Dict String ℕ} {Q : String → Prop}
    (h : Marks nodes region split Q) :
    split.values.countP (fun x => decide (0 < x)) = ((nodes.image region).filter Q).card := by
  have h1 : split.values.countP (fun x => decide (0 < x)) = (split.keys.filter (fun c => decide (Q c))).length := by
    unfold Dict.values Dict.keys
    rw [List.countP_map, ← List.countP_eq_length_filter, List.countP_map]
    apply List.countP_congr
    intro e he
    have := h.pos e.1 e.2 (Dict.get?_of_mem_entries h.wf he)
    simp [this]
  rw [h1, ← List.toFinset_card_of_nodup (h.wf.filter _)]
  congr 1
  ext c
  simp [h.keys]

/-- Region `c` contains an edge of the graph whose ends lie in different districts. -/
def CutInside (G : Graph V) (region : V → String) (a : Assignment V P) (c : String) : Prop :=
  ∃ x y, G.Adj x y ∧ region x = c ∧ region y = c ∧ a.mapping.get? x ≠ a.mapping.get? y

theorem cutInside_split {G : Graph V} (hG : G.WF) {region : V → String} {a : Assignment V P} {c : String}
    (h : CutInside G region a c) : SplitCounty G.nodes region a c := by
  obtain ⟨x, y, h1, h2, h3, h4⟩ := h
  exact ⟨x, (hG.mem_of_adj h1).1, y, (hG.mem_of_adj h1).2, h2, h3, h4⟩

theorem split_cutInside {G : Graph V} {region : V → String} {a : Assignment V P} {c : String}
    (hc : ConnectedOn G (G.nodes.filter (fun v => region v = c))) (h : SplitCounty G.nodes region a c) :
    CutInside G region a c := by
  obtain ⟨x, hx, y, hy, hxc, hyc, hne⟩ := h
  have hr := hc.2 x (by simp [hx, hxc]) y (by simp [hy, hyc])
  by_contra hno
  apply hne
  clear hne hyc hy
  induction hr with
  | refl => rfl
  | @tail b d _ hs ih =>
    rw [ih]
    by_contra hbd
    obtain ⟨h1, h2, h3⟩ := hs
    simp only [Finset.mem_filter] at h2 h3
    exact hno ⟨b, d, h1, h2.2, h3.2, hbd⟩

open Classical in
theorem totalRegSplits_ok {G : Graph V} (hG : G.WF) {region : V → String} {a : Assignment V P} (hcov : a.Covers G.nodes) :
    totalRegSplits G.nodes region a.mapping (cutsOf G a.mapping) =
      .ok ((G.nodes.image region).filter (CutInside G region a)).card := by
  have h0 : Marks G.nodes region ⟨((iter G.nodes).map region).dedup.map (fun n => (n, 0))⟩ (fun _ => False) := by
    have hk : (⟨((iter G.nodes).map region).dedup.map (fun n => (n, 0))⟩ : Dict String ℕ).keys =
        ((iter G.nodes).map region).dedup := by simp [Dict.keys, Function.comp_def]
    refine ⟨?_, ?_, ?_⟩
    · unfold Dict.WF; rw [hk]; exact List.nodup_dedup _
    · intro c; rw [hk]; simp
    · intro c x hx
      have := Dict.mem_entries_of_get? hx
      simp only [List.mem_map, Prod.mk.injEq] at this
      obtain ⟨_, _, _, rfl⟩ := this
      simp
  obtain ⟨split, h1, h2⟩ := regSplit_fold (m := a.mapping) (fun v hv => (hcov v).2 hv) (iterE (cutsOf G a.mapping)) (by
    intro e he
    rw [mem_iterE, mem_cutsOf] at he
    exact hG.mem_of_adj he.1.2) _ _ h0
  unfold totalRegSplits
  simp only [bind, Except.bind, pure, Except.pure]
  rw [h1]
  simp only
  rw [h2.count]
  congr 2
  ext c
  simp only [Finset.mem_filter]
  refine and_congr_right fun _ => ?_
  constructor
  · rintro (hf | ⟨e, he, g1, g2, g3⟩)
    · exact hf.elim
    · rw [mem_iterE, mem_cutsOf] at he
      exact ⟨e.1, e.2, he.1.2, g2, g3, g1⟩
  · rintro ⟨x, y, g1, g2, g3, g4⟩
    right
    rcases le_total x y with hxy | hxy
    · exact ⟨(x, y), by rw [mem_iterE, mem_cutsOf]; exact ⟨⟨hxy, g1⟩, g4⟩, g4, g2, g3⟩
    · exact ⟨(y, x), by rw [mem_iterE, mem_cutsOf]; exact ⟨⟨hxy, g1.symm⟩, g4.symm⟩, g4.symm, g3, g2⟩

open Classical in
/-- **C29.** In every history, whenever `tally_region_splits(attrs)` answers, the answer lists exactly the given attributes,
and for each of them the number of regions that contain an edge between two districts; if every region is connected, this
is the number of regions meeting at least two districts. -/
theorem C29_region_splits {D : GraphData V} {ups : List Key} {ops : List (Op V P)} (hD : D.graph.WF)
    (hops : ∀ op ∈ ops, op.WF) {p : ℕ} {v : View V P} (hv : (Heap.after D ups ops).frame.view p = some v)
    (limit : ℕ) (attrs : List String) {d : Dict String ℕ}
    (hd : tallyRegionSplits (Heap.after D ups ops) limit attrs p = .ok d) :
    (∀ attr, attr ∈ d.keys ↔ attr ∈ attrs) ∧
    (∀ attr n, d.get? attr = some n →
      n = ((D.graph.nodes.image (D.region attr)).filter (CutInside D.graph (D.region attr) v.assignment)).card ∧
      ((∀ c ∈ D.graph.nodes.image (D.region attr), ConnectedOn D.graph (D.graph.nodes.filter (fun x => D.region attr x = c))) →
        n = ((D.graph.nodes.image (D.region attr)).filter (SplitCounty D.graph.nodes (D.region attr) v.assignment)).card)) := by
  obtain ⟨hi, hdat, -⟩ := after_inv (P := P) (ups := ups) hD hops
  unfold tallyRegionSplits at hd
  rw [hv] at hd
  simp only at hd
  split at hd
  · cases hd
  rw [hdat] at hd
  have hcov := hi.frame.covers p v hv
  rw [hdat] at hcov
  -- the loop over the attributes
  have key : ∀ (l : List String) (d0 d : Dict String ℕ),
      (∀ attr n, d0.get? attr = some n →
        n = ((D.graph.nodes.image (D.region attr)).filter (CutInside D.graph (D.region attr) v.assignment)).card) →
      l.foldlM (fun (d : Dict String ℕ) attr => (do
        let x ← (getitem (Heap.after D ups ops).frame limit .cutEdges p (Heap.after D ups ops).caches).1
        let cuts ← x.asEdgeSet
        let n ← totalRegSplits D.graph.nodes (D.region attr) v.assignment.mapping cuts
        return d.set attr n : Py (Dict String ℕ))) d0 = .ok d →
      (∀ attr, attr ∈ d.keys ↔ attr ∈ d0.keys ∨ attr ∈ l) ∧ ∀ attr n, d.get? attr = some n →
        n = ((D.graph.nodes.image (D.region attr)).filter (CutInside D.graph (D.region attr) v.assignment)).card := by
    intro l
    induction l with
    | nil =>
      intro d0 d h0 h1
      cases h1
      exact ⟨by simp, h0⟩
    | cons attr l ih =>
      intro d0 d h0 h1
      rw [List.foldlM_cons] at h1
      rcases hx : (getitem (Heap.after D ups ops).frame limit .cutEdges p (Heap.after D ups ops).caches).1 with e | x
      · rw [hx] at h1; simp [bind, Except.bind] at h1
      · have hcor := lookup_correct hD hops hv hx
        have hxe := hcor.cutEdges
        rw [hx, hxe] at h1
        simp only [Val.asEdgeSet, bind, Except.bind, totalRegSplits_ok hD hcov, pure, Except.pure] at h1
        rw [hx, hxe] at ih
        simp only [Val.asEdgeSet, bind, Except.bind, totalRegSplits_ok hD hcov, pure, Except.pure] at ih
        obtain ⟨g1, g2⟩ := ih _ d (by
          intro attr' n hn
          by_cases ha : attr' = attr
          · subst ha
            rw [Dict.get?_set_self] at hn
            exact (Option.some.inj hn).symm
          · rw [Dict.get?_set_ne _ _ ha] at hn
            exact h0 attr' n hn) h1
        refine ⟨?_, g2⟩
        intro attr'
        rw [g1, Dict.mem_keys_set]
        simp only [List.mem_cons]
        tauto
  obtain ⟨g1, g2⟩ := key attrs _ d (by simp) hd
  refine ⟨by simpa using g1, ?_⟩
  intro attr n hn
  have := g2 attr n hn
  refine ⟨this, ?_⟩
  intro hcon
  rw [this]
  congr 1
  apply Finset.filter_congr
  intro c hc
  exact ⟨cutInside_split hD, split_cutInside (hcon c hc)⟩

/-- The answer exists whenever `cut_edges` is registered and the recursion limit is not reached. -/
theorem C29_total {D : GraphData V} {ups : List Key} {ops : List (Op V P)} (hD : D.graph.WF)
    (hops : ∀ op ∈ ops, op.WF) {p : ℕ} {v : View V P} (hv : (Heap.after D ups ops).frame.view p = some v)
    {limit : ℕ} (attrs : List String) (hk : Key.cutEdges ∈ ups) (hl : (Heap.after D ups ops).frame.Shallow limit p) :
    ∃ d, tallyRegionSplits (Heap.after D ups ops) limit attrs p = .ok d := by
  obtain ⟨hi, hdat, hu⟩ := after_inv (P := P) (ups := ups) hD hops
  obtain ⟨x, hx⟩ := lookup_total (limit := limit) hD hops hv hk hl trivial
  have hxe := (lookup_correct hD hops hv hx).cutEdges
  have hcov := hi.frame.covers p v hv
  rw [hdat] at hcov
  unfold Heap.lookup at hx
  unfold tallyRegionSplits
  rw [hv]
  simp only
  rw [hu, if_neg (by simpa using hk), hdat, hx, hxe]
  simp only [Val.asEdgeSet, bind, Except.bind, pure, Except.pure, totalRegSplits_ok hD hcov]
  generalize (Dict.empty : Dict String ℕ) = d0
  induction attrs generalizing d0 with
  | nil => exact ⟨d0, rfl⟩
  | cons a l ih =>
    rw [List.foldlM_cons]
    exact ih _

/-- Without the updater `cut_edges`, `ValueError`. -/
example : tallyRegionSplits (Heap.after exData [] [.create exDict]) 9 ["county"] 0 = .error .valueError := by decide +kernel

/-- Hypotheses met; region A = {0, 1} is split by moving node 1. -/
example : tallyRegionSplits (Heap.after exData exUps [.create exDict]) 9 ["county"] 0 = .ok ⟨[("county", 0)]⟩ ∧
    tallyRegionSplits (Heap.after exData exUps [.create exDict, .flip 0 ⟨[(1, 2)]⟩]) 9 ["county"] 1 = .ok ⟨[("county", 1)]⟩ := by
  constructor <;> decide +kernel

/-- The regions of the example are connected. -/
example : ∀ c ∈ exData.graph.nodes.image (exData.region "county"),
    nxIsConnected (exData.graph.subgraph (exData.graph.nodes.filter (fun x => exData.region "county" x = c))) = .ok true := by
  decide +kernel

/-- Without connectedness the two counts differ: on the path 0–1–2 let region A be the two ends and region B the middle node,
and let every node be its own district: A meets two districts, but no edge inside a region is cut. -/
theorem C29_disconnected_region :
    let D : GraphData ℕ := { exData with
      graph := ⟨{0, 1, 2}, {(0, 1), (1, 2)}⟩, region := fun _ v => if v = 1 then "B" else "A" }
    tallyRegionSplits (Heap.after D exUps [.create ⟨[(0, 0), (1, 1), (2, 2)]⟩]) 9 ["county"] 0 = .ok ⟨[("county", 0)]⟩ ∧
    flagsOf ((Heap.after D exUps [.create ⟨[(0, 0), (1, 1), (2, 2)]⟩]).lookup 0 (.countySplits "county") 9) =
      some [("A", .oldSplit), ("B", .notSplit)] := by
  constructor <;> decide +kernel

end GC

import Verif.Lemmas.Updaters

/-!
# Heap invariant: every cached value is right
-/

set_option linter.unusedSectionVars false

set_option autoImplicit false

namespace GC

variable {V P : Type} [LinearOrder V] [DecidableEq P]

/-! ### Proof rules -/

namespace M
variable {S α β : Type}

theorem Sat.bindI {I : S → Prop} {R : α → Prop} {m : M S α} {f : α → M S β} {Q : β → S → Prop}
    {E : PyErr → S → Prop} (h1 : Sat I m (fun a s => I s ∧ R a) E) (h2 : ∀ a, R a → Sat I (f a) Q E) :
    Sat I (m >>= f) Q E :=
  Sat.bind h1 (fun a s hs => h2 a hs.2 s hs.1)

theorem Sat.liftI {I : S → Prop} {R : α → Prop} {x : Py α} {E : PyErr → S → Prop}
    (h1 : ∀ a, x = .ok a → R a) (h2 : ∀ e, x = .error e → ∀ s, I s → E e s) :
    Sat I (M.lift x) (fun a s => I s ∧ R a) E :=
  Sat.lift (fun a ha _ hs => ⟨hs, h1 a ha⟩) h2

theorem Sat.bind_ok {I : S → Prop} {x : Py α} {a : α} {f : α → M S β} {Q : β → S → Prop} {E : PyErr → S → Prop}
    (hx : x = .ok a) (h : Sat I (f a) Q E) : Sat I (M.lift x >>= f) Q E := by subst hx; exact h

theorem Sat.bind_error {I : S → Prop} {x : Py α} {e : PyErr} {f : α → M S β} {Q : β → S → Prop}
    {E : PyErr → S → Prop} (hx : x = .error e) (h : ∀ s, I s → E e s) : Sat I (M.lift x >>= f) Q E := by
  subst hx; exact h

theorem Sat.read_bind {I : S → Prop} {f : S → M S β} {Q : β → S → Prop} {E : PyErr → S → Prop}
    (h : ∀ s, I s → Sat (fun t => t = s) (f s) Q E) : Sat I (M.read >>= f) Q E := fun s hs => h s hs s rfl

theorem Sat.foldlM_set {K A B : Type} [DecidableEq K] {I : S → Prop} {E : PyErr → S → Prop} {R : A → B → Prop}
    (κ : A → K) {step : Dict K B → A → M S (Dict K B)} (l : List A)
    (hstep : ∀ d, ∀ e ∈ l, Sat I (step d e) (fun d' s => I s ∧ ∃ y, R e y ∧ d' = d.set (κ e) y) E) (d : Dict K B) :
    Sat I (l.foldlM step d) (fun d' s => I s ∧
      ((∀ k ∈ l.map κ, ∃ e ∈ l, κ e = k ∧ ∃ y, R e y ∧ d'.get? k = some y) ∧
        ∀ k, k ∉ l.map κ → d'.get? k = d.get? k)) E := by
  induction l generalizing d with
  | nil => exact Sat.pure (fun s hs => ⟨hs, by simp, by simp⟩)
  | cons a l ih =>
    rw [List.foldlM_cons]
    refine Sat.bindI (hstep d a List.mem_cons_self) ?_
    rintro d1 ⟨y, hy, rfl⟩
    refine Sat.conseq (ih (fun d e he => hstep d e (List.mem_cons_of_mem _ he)) _) (fun _ h => h) ?_ (fun _ _ h => h)
    rintro d' s ⟨hs, h1, h2⟩
    refine ⟨hs, ?_, ?_⟩
    · intro k hk
      by_cases hk' : k ∈ l.map κ
      · obtain ⟨e, he, h⟩ := h1 k hk'
        exact ⟨e, List.mem_cons_of_mem _ he, h⟩
      · simp only [List.map_cons, List.mem_cons] at hk
        rcases hk with rfl | hk
        · exact ⟨a, List.mem_cons_self, rfl, y, hy, by rw [h2 _ hk', Dict.get?_set_self]⟩
        · exact absurd hk hk'
    · intro k hk
      simp only [List.map_cons, List.mem_cons, not_or] at hk
      rw [h2 k hk.2, Dict.get?_set_ne _ _ hk.1]

end M

/-! ### Invariants -/

/-- `v` was flipped in the creation of some object with address at most `p`. -/
def Frame.moved (F : Frame V P) (p : ℕ) (v : V) : Prop :=
  ∃ i ≤ p, ∃ o, F.objs[i]? = some o ∧ ∃ fl, o.flips = some fl ∧ v ∈ fl.keys

/-- How a child with a remaining parent pointer relates to its parent. -/
structure Link (F : Frame V P) (p : ℕ) (v : View V P) (q : ℕ) (w : View V P) : Prop where
  lt : q < p
  view : F.view q = some w
  ex : ∃ fl flows, v.flips = some fl ∧ v.flows = some flows ∧ fl.WF ∧
    FlipSpec w.assignment fl v.assignment ∧ FlowsSpec w.assignment.mapping fl flows ∧
    (Key.cutEdges ∈ F.updaters → ∃ ef, v.edgeFlows = some ef ∧
      EdgeFlowsSpec F.data.graph w.assignment.mapping v.assignment.mapping ef) ∧
    (Key.cutEdges ∉ F.updaters → v.edgeFlows = none)

/-- Invariant of everything but the caches. -/
structure FrameInv (F : Frame V P) : Prop where
  graph : F.data.graph.WF
  refs : ∀ (p : ℕ) (o : PObj V P), F.objs[p]? = some o → o.partsRef < F.partsCells.length ∧ o.mapRef < F.mapCells.length
  coherent : ∀ p v, F.view p = some v → v.assignment.Coherent
  covers : ∀ p v, F.view p = some v → v.assignment.Covers F.data.graph.nodes
  link : ∀ p v q, F.view p = some v → v.parent = some q → ∃ w, Link F p v q w
  /-- the flips are part of the assignment, also after the parent has been erased -/
  flips : ∀ p v fl, F.view p = some v → v.flips = some fl →
    fl.WF ∧ ∀ n r, fl.get? n = some r → v.assignment.mapping.get? n = some r
  /-- newly constructed partitions have no parent and no empty district -/
  fresh : ∀ p v, F.view p = some v → v.flips = none →
    v.parent = none ∧ ∀ part s, v.assignment.parts.get? part = some s → s.Nonempty

/-- Invariant of the caches: every cached value is right. -/
def CacheInv (F : Frame V P) (c : Caches V P) : Prop :=
  ∀ p k x, (c p).get? k = some x → ∃ v, F.view p = some v ∧ Correct F.data (F.moved p) v.assignment k x

/-- the object `q` is reached from `p` by following `.parent` at least once -/
inductive Frame.Ancestor (F : Frame V P) : ℕ → ℕ → Prop
  | parent {p q : ℕ} (h : (F.objs[p]?).bind (·.parent) = some q) : F.Ancestor p q
  | step {p q r : ℕ} (h : (F.objs[p]?).bind (·.parent) = some q) (hr : F.Ancestor q r) : F.Ancestor p r

/-- every district of the object `i` has a node whose entry in the column `val` is not NaN -/
def Frame.Filled (F : Frame V P) (val : V → Num) (i : ℕ) : Prop :=
  ∀ w, F.view i = some w → ∀ part ∈ w.assignment.parts.keys, ∃ v ∈ w.assignment.partOf part, val v ≠ ⊥

/-- Column `val` is never NaN on a moved node, and every district of every ancestor has a non-NaN node. -/
def TallySafe (F : Frame V P) (val : V → Num) (p : ℕ) : Prop :=
  (∀ v, F.moved p v → val v ≠ ⊥) ∧ ∀ i, F.Ancestor p i → F.Filled val i

/-- The other updaters that updater `k` looks up are registered; tallied columns are safe. -/
def DepsOK (F : Frame V P) (p : ℕ) : Key → Prop
  | .cutEdges | .boundaryNodes | .countySplits _ => True
  | .cutEdgesByPart => Key.cutEdges ∈ F.updaters
  | .tally fields => TallySafe F (tallyFromNode F.data fields) p
  | .dataTally col => TallySafe F (F.data.col col) p
  | .extBoundarySet | .extBoundary => Key.boundaryNodes ∈ F.updaters
  | .intBoundary => Key.cutEdges ∈ F.updaters ∧ Key.cutEdgesByPart ∈ F.updaters
  | .perimeter => Key.cutEdges ∈ F.updaters ∧ Key.cutEdgesByPart ∈ F.updaters ∧ Key.boundaryNodes ∈ F.updaters ∧
      Key.extBoundary ∈ F.updaters ∧ Key.intBoundary ∈ F.updaters
  | .election parties => (parties.map (·.1)).Nodup ∧
      ∀ pc ∈ parties, TallySafe F (F.data.col pc.2) p ∧ F.Filled (F.data.col pc.2) p

/-- Nesting of lookups on the same partition. -/
def level : Key → ℕ
  | .extBoundarySet | .extBoundary | .intBoundary => 1
  | .perimeter => 2
  | _ => 0

/-- The object `p` has fewer than `n` remaining generations of ancestors: following `.parent` from `p` ends after less than `n` steps. -/
def Frame.Shallow (F : Frame V P) : ℕ → ℕ → Prop
  | 0, _ => False
  | n + 1, p => ∀ q, (F.objs[p]?).bind (·.parent) = some q → F.Shallow n q

/-- Conditions under which a lookup cannot raise. -/
structure Safe (F : Frame V P) (limit : ℕ) (k : Key) (p : ℕ) : Prop where
  obj : p < F.objs.length
  reg : k ∈ F.updaters
  lim : ∃ d, F.Shallow d p ∧ d + level k ≤ limit
  deps : DepsOK F p k

theorem Frame.Shallow.mono {F : Frame V P} {n m : ℕ} (h : n ≤ m) {p : ℕ} (hp : F.Shallow n p) : F.Shallow m p := by
  induction n generalizing m p with
  | zero => exact hp.elim
  | succ n ih =>
    obtain ⟨m, rfl⟩ : ∃ m', m = m' + 1 := ⟨m - 1, by omega⟩
    exact fun q hq => ih (by omega) (hp q hq)

theorem Frame.Shallow.safe {F : Frame V P} {limit l p : ℕ} (h : F.Shallow (limit - l) p) : ∃ d, F.Shallow d p ∧ d + l ≤ limit := by
  refine ⟨_, h, ?_⟩
  rcases hm : limit - l with _ | m
  · rw [hm] at h; exact h.elim
  · omega

theorem TallySafe.parent {F : Frame V P} {val : V → Num} {p q : ℕ} (h : TallySafe F val p) (hp : (F.objs[p]?).bind (·.parent) = some q) (hq : q ≤ p) :
    TallySafe F val q :=
  ⟨fun v ⟨i, hi, h'⟩ => h.1 v ⟨i, hi.trans hq, h'⟩, fun i hi => h.2 i (.step hp hi)⟩

theorem DepsOK.parent {F : Frame V P} {k : Key} {p q : ℕ} (h : DepsOK F p k) (hp : (F.objs[p]?).bind (·.parent) = some q) (hq : q ≤ p) : DepsOK F q k := by
  cases k <;> simp only [DepsOK] at h ⊢ <;>
    first | exact h | exact TallySafe.parent h hp hq | exact ⟨h.1, fun pc hpc => ⟨(h.2 pc hpc).1.parent hp hq, (h.2 pc hpc).1.2 q (.parent hp)⟩⟩

theorem Frame.view_eq_some {F : Frame V P} {p : ℕ} {v : View V P} (h : F.view p = some v) :
    ∃ o, F.objs[p]? = some o ∧ F.partsCells[o.partsRef]? = some v.assignment.parts ∧
      F.mapCells[o.mapRef]? = some v.assignment.mapping ∧ v.parent = o.parent ∧ v.flips = o.flips ∧
      v.flows = o.flows ∧ v.edgeFlows = o.edgeFlows := by
  unfold Frame.view at h
  simp only [Option.bind_eq_bind, Option.bind_eq_some_iff, Option.pure_def, Option.some.injEq] at h
  obtain ⟨o, ho, parts, hp, mapping, hm, rfl⟩ := h
  exact ⟨o, ho, hp, hm, rfl, rfl, rfl, rfl⟩

theorem Frame.lt_of_view {F : Frame V P} {p : ℕ} {v : View V P} (h : F.view p = some v) : p < F.objs.length := by
  obtain ⟨o, ho, -⟩ := Frame.view_eq_some h
  by_contra hp
  rw [List.getElem?_eq_none (by omega)] at ho
  cases ho

theorem FrameInv.exists_view {F : Frame V P} (h : FrameInv F) {p : ℕ} (hp : p < F.objs.length) :
    ∃ v, F.view p = some v := by
  have ho : F.objs[p]? = some F.objs[p] := List.getElem?_eq_getElem hp
  obtain ⟨h1, h2⟩ := h.refs p _ ho
  refine ⟨⟨⟨F.partsCells[F.objs[p].partsRef], F.mapCells[F.objs[p].mapRef]⟩, F.objs[p].parent, F.objs[p].flips,
    F.objs[p].flows, F.objs[p].edgeFlows⟩, ?_⟩
  unfold Frame.view
  simp [ho, List.getElem?_eq_getElem h1, List.getElem?_eq_getElem h2]

/-- a parent is older than its child, so no object has more generations of ancestors than there are objects before it -/
theorem FrameInv.shallow {F : Frame V P} (hF : FrameInv F) (n : ℕ) : ∀ {p : ℕ}, p < n → F.Shallow n p := by
  induction n with
  | zero => intro p hp; omega
  | succ n ih =>
    intro p hp q hq
    by_cases hlt : p < F.objs.length
    · obtain ⟨v, hv⟩ := hF.exists_view hlt
      obtain ⟨o, ho, -, -, h, -⟩ := Frame.view_eq_some hv
      rw [ho, Option.bind_some, ← h] at hq
      obtain ⟨w, hw⟩ := hF.link p v q hv hq
      have := hw.lt
      exact ih (by omega)
    · rw [List.getElem?_eq_none (by omega)] at hq
      cases hq

theorem Frame.parent_of_view {F : Frame V P} {p : ℕ} {v : View V P} (hv : F.view p = some v) : (F.objs[p]?).bind (·.parent) = v.parent := by
  obtain ⟨o, ho, -, -, h', -⟩ := Frame.view_eq_some hv
  rw [ho, Option.bind_some, ← h']

theorem Link.shallow {F : Frame V P} {p q n : ℕ} {v : View V P} (hv : F.view p = some v) (hp : v.parent = some q) (h : F.Shallow (n + 1) p) :
    F.Shallow n q := by
  obtain ⟨o, ho, -, -, h', -⟩ := Frame.view_eq_some hv
  exact h q (by rw [ho, Option.bind_some, ← h', hp])

/-- `truthyParent` is the parent when it is used, and `none` only if there is no parent or no district. -/
theorem truthyParent_cases {F : Frame V P} (hF : FrameInv F) {p : ℕ} {v : View V P} (hv : F.view p = some v) :
    F.truthyParent v = none ∨ ∃ q w, F.truthyParent v = some q ∧ v.parent = some q ∧ Link F p v q w := by
  unfold Frame.truthyParent
  rcases hp : v.parent with _ | q
  · left; rfl
  · obtain ⟨w, hw⟩ := hF.link p v q hv hp
    simp only [hw.view]
    split
    · left; rfl
    · right; exact ⟨q, w, rfl, rfl, hw⟩

theorem moved_mono {F : Frame V P} {p q : ℕ} (h : q ≤ p) (v : V) (hm : F.moved q v) : F.moved p v := by
  obtain ⟨i, hi, h'⟩ := hm
  exact ⟨i, hi.trans h, h'⟩

theorem moved_flips {F : Frame V P} {p : ℕ} {v : View V P} (hv : F.view p = some v) {fl : Dict V P}
    (hfl : v.flips = some fl) (x : V) (hx : x ∈ fl.keys) : F.moved p x := by
  obtain ⟨o, ho, -, -, -, h, -⟩ := Frame.view_eq_some hv
  exact ⟨p, le_refl p, o, ho, fl, by rw [← h, hfl], hx⟩

theorem CacheInv.set {F : Frame V P} {c : Caches V P} (hc : CacheInv F c) {p : ℕ} {k : Key} {x : Val V P}
    {v : View V P} (hv : F.view p = some v) (hx : Correct F.data (F.moved p) v.assignment k x) :
    CacheInv F (fun i => if i = p then (c p).set k x else c i) := by
  intro p' k' x' h
  simp only at h
  split at h
  · rename_i hp
    subst hp
    rw [Dict.get?_set] at h
    split at h
    · rename_i hk
      subst hk
      cases h
      exact ⟨v, hv, hx⟩
    · exact hc _ _ _ h
  · exact hc _ _ _ h

theorem cacheSet_sat {F : Frame V P} {p : ℕ} {k : Key} {x : Val V P}
    {v : View V P} (hv : F.view p = some v) (hx : Correct F.data (F.moved p) v.assignment k x)
    {E : PyErr → Caches V P → Prop} :
    M.Sat (CacheInv F) (cacheSet p k x) (fun _ c => CacheInv F c ∧ True) E := by
  intro c hc
  exact ⟨hc.set hv hx, trivial⟩

theorem touchEdges_sat {F : Frame V P} {q : ℕ} {part : P} {E : PyErr → Caches V P → Prop} :
    M.Sat (CacheInv F) (touchEdges q .cutEdgesByPart part) (fun _ c => CacheInv F c ∧ True) E := by
  unfold touchEdges
  refine M.Sat.read_bind (fun c hc => ?_)
  split
  · rename_i d0 hd0
    obtain ⟨v, hv, hx⟩ := hc _ _ _ hd0
    rintro _ rfl
    refine ⟨hc.set hv ?_, trivial⟩
    intro r
    rw [Dict.getD_touch]
    exact hx r
  · exact M.Sat.pure (by rintro _ rfl; exact ⟨hc, trivial⟩)

theorem touchNodes_sat {F : Frame V P} {q : ℕ} {part : P} {E : PyErr → Caches V P → Prop} :
    M.Sat (CacheInv F) (touchNodes q .extBoundarySet part) (fun _ c => CacheInv F c ∧ True) E := by
  unfold touchNodes
  refine M.Sat.read_bind (fun c hc => ?_)
  split
  · rename_i d0 hd0
    obtain ⟨v, hv, hx⟩ := hc _ _ _ hd0
    rintro _ rfl
    refine ⟨hc.set hv ?_, trivial⟩
    intro r
    rw [Dict.getD_touch]
    exact hx r
  · exact M.Sat.pure (by rintro _ rfl; exact ⟨hc, trivial⟩)

theorem touchRats_sat {F : Frame V P} {q : ℕ} {part : P} {E : PyErr → Caches V P → Prop} :
    M.Sat (CacheInv F) (touchRats q .extBoundary part) (fun _ c => CacheInv F c ∧ True) E := by
  unfold touchRats
  refine M.Sat.read_bind (fun c hc => ?_)
  split
  · rename_i d0 hd0
    obtain ⟨v, hv, hx⟩ := hc _ _ _ hd0
    rintro _ rfl
    refine ⟨hc.set hv ?_, trivial⟩
    intro r
    rw [Dict.getD_touch]
    exact hx r
  · exact M.Sat.pure (by rintro _ rfl; exact ⟨hc, trivial⟩)

/-! ### Inversion of `Correct` -/

section inv
variable {D : GraphData V} {moved : V → Prop} {a : Assignment V P} {x : Val V P}

theorem Correct.cutEdges (h : Correct D moved a .cutEdges x) : x = .edgeSet (cutsOf D.graph a.mapping) := by
  cases x <;> simp_all [Correct]
theorem Correct.boundaryNodes (h : Correct D moved a .boundaryNodes x) : x = .nodeSet (boundaryNodesInit D) := by
  cases x <;> simp_all [Correct, boundaryNodesInit]
theorem Correct.cutEdgesByPart (h : Correct D moved a .cutEdgesByPart x) :
    ∃ d, x = .edgesByPart d ∧ ∀ p, (d.get? p).getD ∅ = cutsTouching D.graph a.mapping p := by
  cases x <;> simp_all [Correct]
theorem Correct.tally {fs} (h : Correct D moved a (.tally fs) x) :
    ∃ d, x = .nums d ∧ TallyOK (tallyFromNode D fs) moved a d := by
  cases x <;> simp_all [Correct]
theorem Correct.dataTally {f} (h : Correct D moved a (.dataTally f) x) :
    ∃ d, x = .nums d ∧ TallyOK (D.col f) moved a d := by
  cases x <;> simp_all [Correct]
theorem Correct.extBoundarySet (h : Correct D moved a .extBoundarySet x) :
    ∃ d, x = .nodesByPart d ∧ ∀ p, (d.get? p).getD ∅ = (a.partOf p).filter (fun v => D.boundaryNode v) := by
  cases x <;> simp_all [Correct]
theorem Correct.extBoundary (h : Correct D moved a .extBoundary x) :
    ∃ d, x = .rats d ∧
      ∀ p, (d.get? p).getD 0 = ((a.partOf p).filter (fun v => D.boundaryNode v)).sum D.boundaryPerim := by
  cases x <;> simp_all [Correct]
theorem Correct.intBoundary (h : Correct D moved a .intBoundary x) :
    ∃ d, x = .rats d ∧ (∀ p, p ∈ a.parts.keys → p ∈ d.keys) ∧
    ∀ p x, d.get? p = some x → x = (cutsTouching D.graph a.mapping p).sum D.sharedPerim := by
  cases x <;> simp only [Correct] at h
  exact ⟨_, rfl, h⟩
theorem Correct.perimeter (h : Correct D moved a .perimeter x) :
    ∃ d, x = .rats d ∧ ∀ p ∈ a.parts.keys, d.get? p =
      some (((a.partOf p).filter (fun v => D.boundaryNode v)).sum D.boundaryPerim +
      (cutsTouching D.graph a.mapping p).sum D.sharedPerim) := by
  cases x <;> simp_all [Correct]
theorem Correct.election {ps} (h : Correct D moved a (.election ps) x) :
    ∃ r, x = .election r ∧ ElectionOK D moved ps a r := by
  cases x <;> simp_all [Correct]
theorem Correct.countySplits {f} (h : Correct D moved a (.countySplits f) x) :
    ∃ d, x = .counties d ∧ CountiesOK D.graph.nodes (D.region f) a d := by
  cases x <;> simp_all [Correct]
end inv

end GC

import Verif.Model.CountyNames
import Verif.Props.TallyNames
import Verif.Props.Splits

/-!
# C119: under which names `county_splits` is right

`county_splits(partition_name, field)` looks up `partition_name` on the parent.  All look-ups of all histories are right exactly if under the `partition_name` of every registered one
there is a `county_splits` of the same counties (`C119_names`); one that is registered under its own `partition_name` is such (`C119_own_names`).  What comes out otherwise are the
counties of the other field (`C119_other_field`), or a `KeyError` (`C119_unregistered`).
-/

set_option linter.unusedSectionVars false
set_option autoImplicit false

namespace GC

variable {V P : Type} [LinearOrder V] [DecidableEq P]

/-- under the `partition_name` of every registered `county_splits` there is one with the same counties -/
def FitCountyNames (D : GraphData V) (reg : CountyRegistry) : Prop :=
  ∀ name u, reg.get? name = some u → ∃ u', reg.get? u.partitionName = some u' ∧ ∀ v ∈ D.graph.nodes, D.region u'.field v = D.region u.field v

theorem CountiesOK.congr {nodes : Finset V} {county county' : V → String} {a : Assignment V P} {d : Dict String (CountyInfo V P)} (h : ∀ v ∈ nodes, county v = county' v)
    (hd : CountiesOK nodes county a d) : CountiesOK nodes county' a d where
  wf := hd.wf
  keys := fun c => by
    rw [hd.keys]
    exact exists_congr (fun v => and_congr_right (fun hv => by rw [h v hv]))
  nodes := fun c i hi v => by
    rw [hd.nodes c i hi]
    exact and_congr_right (fun hv => by rw [h v hv])
  contains := fun c i hi p => by
    rw [hd.contains c i hi]
    exact exists_congr (fun v => and_congr_right (fun hv => by rw [h v hv]))
  split := hd.split

/-- the same value is right for two fields only if they have the same counties -/
theorem CountiesOK.unique {nodes : Finset V} {county county' : V → String} {a : Assignment V P} {d : Dict String (CountyInfo V P)} (h1 : CountiesOK nodes county a d)
    (h2 : CountiesOK nodes county' a d) : ∀ v ∈ nodes, county v = county' v := by
  intro v hv
  obtain ⟨i, hi⟩ := Dict.mem_keys_iff.1 ((h1.keys (county v)).2 ⟨v, hv, rfl⟩)
  exact (((h2.nodes _ i hi v).1 ((h1.nodes _ i hi v).2 ⟨hv, rfl⟩)).2).symm

section histories
variable {D : GraphData V} {ups : List Key} {reg : CountyRegistry} {F : Frame V P}

theorem countyFrame_eq (reg' : Registry) (ops : List (TallyOp V P)) : (CountyWorld.after D ups reg ops).frame = (TallyWorld.after D ups reg' ops).frame := by
  have key : ∀ (ops : List (TallyOp V P)) (W : CountyWorld V P) (W' : TallyWorld V P), W.frame = W'.frame →
      (ops.foldl (CountyWorld.step reg) W).frame = (ops.foldl (TallyWorld.step reg') W').frame := by
    intro ops
    induction ops with
    | nil => exact fun _ _ h => h
    | cons op ops ih =>
      intro W W' h
      refine ih _ _ ?_
      cases op with
      | create d => unfold CountyWorld.step TallyWorld.step; simp only; rw [h]; cases W'.frame.create d <;> first | exact h | rfl
      | flip p f => unfold CountyWorld.step TallyWorld.step; simp only; rw [h]; cases W'.frame.flip p f <;> first | exact h | rfl
      | lookup p name limit => exact h
      | eraseParent p => show W.frame.eraseParent p = W'.frame.eraseParent p; rw [h]
  exact key ops _ _ rfl

theorem countyFrame_inv (hD : D.graph.WF) {ops : List (TallyOp V P)} (hops : ∀ op ∈ ops, op.WF) :
    FrameInv (CountyWorld.after D ups reg ops).frame ∧ (CountyWorld.after D ups reg ops).frame.data = D := by
  rw [countyFrame_eq Dict.empty ops]
  obtain ⟨h1, h2, -⟩ := tallyFrame_after (ups := ups) (reg := Dict.empty) (q := fun _ _ => 0) hD hops
  exact ⟨h1, h2⟩

/-- an invariant of the caches that is kept by look-ups, and by the other operations -/
theorem county_induction (hD : D.graph.WF) (I : Frame V P → CountyCaches V P → Prop) (h0 : I ⟨D, ups, [], [], []⟩ (fun _ => Dict.empty))
    (hlook : ∀ F : Frame V P, FrameInv F → F.data = D → ∀ limit name p c, I F c → I F (countyGet F reg limit name p c).2)
    (hframe : ∀ (F : Frame V P) (op : TallyOp V P), FrameInv F → op.WF → ∀ c, I F c → I (TallyWorld.step Dict.empty ⟨F, fun _ => Dict.empty⟩ op).frame c)
    {ops : List (TallyOp V P)} (hops : ∀ op ∈ ops, op.WF) : I (CountyWorld.after D ups reg ops).frame (CountyWorld.after D ups reg ops).caches := by
  have hF0 : FrameInv (⟨D, ups, [], [], []⟩ : Frame V P) := (heapInv_start (P := P) hD ups).frame
  have key : ∀ (ops : List (TallyOp V P)) (W : CountyWorld V P), (∀ op ∈ ops, op.WF) → FrameInv W.frame → W.frame.data = D → I W.frame W.caches →
      I (ops.foldl (CountyWorld.step reg) W).frame (ops.foldl (CountyWorld.step reg) W).caches := by
    intro ops
    induction ops with
    | nil => exact fun _ _ _ _ h => h
    | cons op ops ih =>
      intro W hops h1 h2 h3
      have hop := hops op List.mem_cons_self
      obtain ⟨g1, g2⟩ := tallyFrame_step (reg := Dict.empty) (W := ⟨W.frame, fun _ => Dict.empty⟩) h1 hop
      have hI := hframe W.frame op h1 hop W.caches h3
      have e : (W.step reg op).frame = (TallyWorld.step Dict.empty ⟨W.frame, fun _ => Dict.empty⟩ op).frame := by
        cases op with
        | create d => unfold CountyWorld.step TallyWorld.step; simp only; cases W.frame.create d <;> rfl
        | flip p f => unfold CountyWorld.step TallyWorld.step; simp only; cases W.frame.flip p f <;> rfl
        | lookup p name limit => rfl
        | eraseParent p => rfl
      refine ih _ (fun op hop => hops op (List.mem_cons_of_mem _ hop)) (e ▸ g1) (by rw [e]; exact g2.data.trans h2) ?_
      rw [← e] at hI
      cases op with
      | create d => revert hI; unfold CountyWorld.step; simp only; cases W.frame.create d <;> exact id
      | flip p f => revert hI; unfold CountyWorld.step; simp only; cases W.frame.flip p f <;> exact id
      | lookup p name limit => exact hlook W.frame h1 h2 limit name p W.caches h3
      | eraseParent p => exact hI
  exact key ops _ hops hF0 rfl h0

/-- every cached value is right -/
def RightCounties (reg : CountyRegistry) (F : Frame V P) (c : CountyCaches V P) : Prop :=
  ∀ p name d, (c p).get? name = some d → ∃ v u, F.view p = some v ∧ reg.get? name = some u ∧ CountiesOK F.data.graph.nodes (F.data.region u.field) v.assignment d

/-- with fitting names every look-up is right, and it fails only if it is too deep, or the name is unknown -/
theorem countyGet_sat (hF : FrameInv F) (hfit : FitCountyNames F.data reg) (limit : ℕ) : ∀ (name : String) (p : ℕ),
    M.Sat (RightCounties reg F) (countyGet F reg limit name p)
      (fun d c => RightCounties reg F c ∧ ∃ v u, F.view p = some v ∧ reg.get? name = some u ∧ CountiesOK F.data.graph.nodes (F.data.region u.field) v.assignment d)
      (fun _ c => RightCounties reg F c ∧ ¬(F.Shallow limit p ∧ name ∈ reg.keys ∧ p < F.objs.length)) := by
  induction limit with
  | zero =>
    intro name p
    exact M.Sat.raise (fun c hc => ⟨hc, fun h => h.1⟩)
  | succ limit ih =>
    intro name p
    unfold countyGet
    refine M.Sat.read_bind (fun c hc => ?_)
    rcases hcache : (c p).get? name with _ | d
    swap
    · exact M.Sat.pure (fun s hs => hs ▸ ⟨hc, hc p name d hcache⟩)
    rcases hu : reg.get? name with _ | u
    · exact M.Sat.raise (fun s hs => hs ▸ ⟨hc, fun h => (by
        obtain ⟨u, hu'⟩ := Dict.mem_keys_iff.1 h.2.1
        rw [hu] at hu'; cases hu')⟩)
    rcases hv : F.view p with _ | v
    · exact M.Sat.raise (fun s hs => hs ▸ ⟨hc, fun h => (by
        obtain ⟨v, hv'⟩ := hF.exists_view h.2.2
        rw [hv] at hv'; cases hv')⟩)
    have hstore : ∀ d, CountiesOK F.data.graph.nodes (F.data.region u.field) v.assignment d → M.Sat (RightCounties reg F) (countyGet.store p name d)
        (fun d c => RightCounties reg F c ∧ ∃ v' u', some v = some v' ∧ some u = some u' ∧ CountiesOK F.data.graph.nodes (F.data.region u'.field) v'.assignment d)
        (fun _ c => RightCounties reg F c ∧ ¬(F.Shallow (limit + 1) p ∧ name ∈ reg.keys ∧ p < F.objs.length)) := by
      intro d hd s hs
      refine ⟨fun i n d' h => ?_, v, u, rfl, rfl, hd⟩
      simp only at h
      split at h
      · rename_i hi
        subst hi
        by_cases hn : n = name
        · subst hn
          rw [Dict.get?_set_self] at h
          cases h
          exact ⟨v, u, hv, hu, hd⟩
        · rw [Dict.get?_set_ne _ _ hn] at h
          exact hs i n d' h
      · exact hs i n d' h
    refine M.Sat.conseq (P := RightCounties reg F) ?_ (fun s hs => hs ▸ hc) (fun _ _ h => h) (fun _ _ h => h)
    dsimp only
    rcases hp : F.truthyParent v with _ | r
    · obtain ⟨d, h1, h2, -⟩ := countySplitsInit_ok (county := F.data.region u.field) (hF.covers p v hv)
      exact M.Sat.bind_ok (by rw [h1]) (hstore d h2)
    · have hp' : v.parent = some r := by
        unfold Frame.truthyParent at hp
        rcases hq : v.parent with _ | q <;> rw [hq] at hp
        · cases hp
        · simp only at hp
          split at hp
          · split_ifs at hp
            cases hp
            rfl
          · cases hp
      obtain ⟨w, hl⟩ := hF.link p v r hv hp'
      have hpar : (F.objs[p]?).bind (·.parent) = some r := by rw [Frame.parent_of_view hv, hp']
      obtain ⟨u', hu', hval⟩ := hfit name u hu
      have hrec := M.Sat.conseq (ih u.partitionName r) (fun _ h => h) (fun _ _ h => h)
        (E' := fun _ c => RightCounties reg F c ∧ ¬(F.Shallow (limit + 1) p ∧ name ∈ reg.keys ∧ p < F.objs.length))
        (fun e s h => ⟨h.1, fun g => h.2 ⟨g.1 r hpar, Dict.mem_keys_iff.2 ⟨u', hu'⟩, Frame.lt_of_view hl.view⟩⟩)
      refine M.Sat.bindI hrec ?_
      rintro prev ⟨w', u'', hw', hu'', hprev⟩
      rw [hu'] at hu''; cases hu''
      obtain ⟨d, h1, h2, -⟩ := countySplitsStep_ok (hF.covers p v hv) (hprev.congr hval)
      exact M.Sat.bind_ok (by rw [h1]) (hstore d h2)

theorem rightCounties_after (hD : D.graph.WF) (hfit : FitCountyNames D reg) {ops : List (TallyOp V P)} (hops : ∀ op ∈ ops, op.WF) :
    RightCounties reg (CountyWorld.after D ups reg ops).frame (CountyWorld.after D ups reg ops).caches := by
  refine county_induction hD (RightCounties reg) (fun p name d h => by simp at h) ?_ ?_ hops
  · intro F hF hd limit name p c hc
    have := countyGet_sat hF (hd ▸ hfit) limit name p c hc
    revert this
    rcases countyGet F reg limit name p c with ⟨_ | a, s'⟩
    · exact fun h => h.1
    · exact fun h => h.1
  · intro F op hF hop c hc p name d hd
    obtain ⟨-, hst⟩ := tallyFrame_step (reg := Dict.empty) (W := ⟨F, fun _ => Dict.empty⟩) hF hop
    obtain ⟨v, u, hv, hu, hr⟩ := hc p name d hd
    obtain ⟨v', h1, h2⟩ := hst.view p v hv
    exact ⟨v', u, h1, hu, by rw [h2, hst.data]; exact hr⟩

/-- a value computed on an object without parent is right, whatever the names are -/
theorem countyGet_root (hF : FrameInv F) {c : CountyCaches V P} {limit p : ℕ} {name : String} {v : View V P} {d : Dict String (CountyInfo V P)}
    (hc : (c p).get? name = none) (hv : F.view p = some v) (hp : v.parent = none) (hd : (countyGet F reg limit name p c).1 = .ok d) :
    ∃ u, reg.get? name = some u ∧ CountiesOK F.data.graph.nodes (F.data.region u.field) v.assignment d := by
  cases limit with
  | zero => cases hd
  | succ limit =>
    unfold countyGet at hd
    rw [show ∀ (f : CountyCaches V P → M (CountyCaches V P) (Dict String (CountyInfo V P))), ((M.read >>= f) c).1 = (f c c).1 from fun _ => rfl] at hd
    rcases hu : reg.get? name with _ | u
    · simp only [hc, hu] at hd; cases hd
    · have ht : F.truthyParent v = none := by unfold Frame.truthyParent; rw [hp]
      simp only [hc, hu, hv, ht] at hd
      obtain ⟨d', h1, h2, -⟩ := countySplitsInit_ok (county := F.data.region u.field) (hF.covers p v hv)
      rw [h1] at hd
      change Except.ok d' = Except.ok d at hd
      cases hd
      exact ⟨u, rfl, h2⟩

/-- **C119** (another field under the name) If the `partition_name` belongs to a `county_splits` of another field, the value on a child of an object without parent has the counties of
that other field; so it is right exactly if the two fields have the same counties. -/
theorem C119_other_field (hF : FrameInv F) {c : CountyCaches V P} {limit p r : ℕ} {name : String} {u : CountyUpd} {v w : View V P} {d : Dict String (CountyInfo V P)}
    (hne : F.data.graph.nodes.Nonempty) (hc : (c p).get? name = none) (hc' : (c r).get? u.partitionName = none) (hu : reg.get? name = some u)
    (hv : F.view p = some v) (hp : v.parent = some r) (hw : F.view r = some w) (hr : w.parent = none) (hd : (countyGet F reg (limit + 1) name p c).1 = .ok d) :
    ∃ u', reg.get? u.partitionName = some u' ∧ CountiesOK F.data.graph.nodes (F.data.region u'.field) v.assignment d ∧
      (CountiesOK F.data.graph.nodes (F.data.region u.field) v.assignment d ↔ ∀ n ∈ F.data.graph.nodes, F.data.region u'.field n = F.data.region u.field n) := by
  obtain ⟨x, hx⟩ := hne
  have ht := truthyParent_of_nodes hF hv hp hx
  unfold countyGet at hd
  rw [show ∀ (f : CountyCaches V P → M (CountyCaches V P) (Dict String (CountyInfo V P))), ((M.read >>= f) c).1 = (f c c).1 from fun _ => rfl] at hd
  simp only [hc, hu, hv, ht] at hd
  rcases hg : countyGet F reg limit u.partitionName r c with ⟨_ | prev, c'⟩
  · rw [M.bind_error hg] at hd; cases hd
  rw [M.bind_ok hg] at hd
  obtain ⟨u', hu', hok⟩ := countyGet_root hF hc' hw hr (by rw [hg])
  obtain ⟨d', h1, h2, -⟩ := countySplitsStep_ok (hF.covers p v hv) hok
  change (((M.lift (countySplitsStep v.assignment.mapping prev)) >>= fun d => countyGet.store p name d) c').1 = .ok d at hd
  rw [h1] at hd
  change Except.ok d' = Except.ok d at hd
  cases hd
  exact ⟨u', hu', h2, fun h => h2.unique h, fun h => h2.congr h⟩

theorem county_nolookup {ops : List (TallyOp V P)} (h : ∀ op ∈ ops, ∀ p name limit, op ≠ .lookup p name limit) :
    (CountyWorld.after D ups reg ops).caches = fun _ => Dict.empty := by
  have key : ∀ (ops : List (TallyOp V P)) (W : CountyWorld V P), (∀ op ∈ ops, ∀ p name limit, op ≠ .lookup p name limit) → (ops.foldl (CountyWorld.step reg) W).caches = W.caches := by
    intro ops
    induction ops with
    | nil => exact fun _ _ => rfl
    | cons op ops ih =>
      intro W h
      refine (ih _ (fun op hop => h op (List.mem_cons_of_mem _ hop))).trans ?_
      cases op with
      | create d => unfold CountyWorld.step; simp only; cases W.frame.create d <;> rfl
      | flip p f => unfold CountyWorld.step; simp only; cases W.frame.flip p f <;> rfl
      | lookup p name limit => exact absurd rfl (h _ List.mem_cons_self p name limit)
      | eraseParent p => rfl
  exact key ops _ h

/-- **C119** (under which names `county_splits` is right) Every look-up of every registered `county_splits` in every history - on objects with few enough ancestors - gives the counties
of its field with their nodes and districts, exactly if under the `partition_name` of every registered one there is one with the same counties. -/
theorem C119_names [Nonempty P] (hD : D.graph.WF) (hne : D.graph.nodes.Nonempty) :
    FitCountyNames D reg ↔ ∀ ops : List (TallyOp V P), (∀ op ∈ ops, op.WF) → ∀ p v name u limit, (CountyWorld.after D ups reg ops).frame.view p = some v →
      reg.get? name = some u → (CountyWorld.after D ups reg ops).frame.Shallow limit p →
      ∃ d, (CountyWorld.after D ups reg ops).get reg p name limit = .ok d ∧ CountiesOK D.graph.nodes (D.region u.field) v.assignment d := by
  constructor
  · intro hfit ops hops p v name u limit hv hu hs
    obtain ⟨h1, h2⟩ := countyFrame_inv (ups := ups) (reg := reg) hD hops
    have := countyGet_sat h1 (by rw [h2]; exact hfit) limit name p _ (rightCounties_after hD hfit hops)
    unfold CountyWorld.get
    rcases hg : countyGet (CountyWorld.after D ups reg ops).frame reg limit name p (CountyWorld.after D ups reg ops).caches with ⟨e | d, c⟩
    · rw [hg] at this
      exact absurd ⟨hs, Dict.mem_keys_iff.2 ⟨u, hu⟩, Frame.lt_of_view hv⟩ this.2
    · rw [hg] at this
      obtain ⟨-, v', u', e1, e2, e3⟩ := this
      rw [hv] at e1; cases e1
      rw [hu] at e2; cases e2
      rw [h2] at e3
      exact ⟨d, rfl, e3⟩
  · intro h name u hu
    obtain ⟨p0⟩ := ‹Nonempty P›
    obtain ⟨ops, hops, hno, v, w, hw, hv, hwp, hvp, -⟩ := two_objects (ups := ups) (reg := Dict.empty) hD (fun _ : V => p0)
    rw [← countyFrame_eq (reg := reg)] at hw hv
    obtain ⟨h1, h2⟩ := countyFrame_inv (ups := ups) (reg := reg) hD hops
    have hcache := county_nolookup (D := D) (ups := ups) (reg := reg) hno
    have hp1 := Frame.parent_of_view hv
    have hp0 := Frame.parent_of_view hw
    rw [hvp] at hp1
    rw [hwp] at hp0
    obtain ⟨d, hd, hright⟩ := h ops hops 1 v name u 2 hv hu (fun r hr => by
      rw [hp1] at hr
      cases hr
      exact fun r hr => by rw [hp0] at hr; cases hr)
    unfold CountyWorld.get at hd
    rw [hcache] at hd
    obtain ⟨u', hu', -, hiff⟩ := C119_other_field (limit := 1) h1 (by rw [h2]; exact hne) (by simp) (by simp) hu hv hvp hw hwp hd
    rw [h2] at hiff
    exact ⟨u', hu', hiff.1 hright⟩

/-- **C119** (the usual names) `county_splits` registered under its own `partition_name` fits. -/
theorem C119_own_names (h : ∀ name u, reg.get? name = some u → u.partitionName = name) : FitCountyNames D reg :=
  fun name u hu => ⟨u, by rw [h name u hu, hu], fun _ _ => rfl⟩

/-- cached values of children have a registered `partition_name` -/
def NamedCounties (reg : CountyRegistry) (F : Frame V P) (c : CountyCaches V P) : Prop :=
  ∀ p name d, (c p).get? name = some d → ∃ v u, F.view p = some v ∧ reg.get? name = some u ∧ (v.parent ≠ none → F.data.graph.nodes.Nonempty → u.partitionName ∈ reg.keys)

theorem countyGet_named (hF : FrameInv F) (limit : ℕ) : ∀ (name : String) (p : ℕ), M.Sat (NamedCounties reg F) (countyGet F reg limit name p)
      (fun _ c => NamedCounties reg F c ∧ name ∈ reg.keys) (fun _ c => NamedCounties reg F c) := by
  induction limit with
  | zero => exact fun name p => M.Sat.raise (fun c hc => hc)
  | succ limit ih =>
    intro name p
    unfold countyGet
    refine M.Sat.read_bind (fun c hc => ?_)
    rcases hcache : (c p).get? name with _ | d
    swap
    · refine M.Sat.pure (fun s hs => hs ▸ ⟨hc, ?_⟩)
      obtain ⟨v, u, -, hu, -⟩ := hc p name d hcache
      exact Dict.mem_keys_iff.2 ⟨u, hu⟩
    rcases hu : reg.get? name with _ | u
    · exact M.Sat.raise (fun s hs => hs ▸ hc)
    rcases hv : F.view p with _ | v
    · exact M.Sat.raise (fun s hs => hs ▸ hc)
    refine M.Sat.conseq (P := NamedCounties reg F) ?_ (fun s hs => hs ▸ hc) (fun _ _ h => h) (fun _ _ h => h)
    have hstore : ∀ d, (v.parent ≠ none → F.data.graph.nodes.Nonempty → u.partitionName ∈ reg.keys) → M.Sat (NamedCounties reg F) (countyGet.store p name d)
        (fun _ c => NamedCounties reg F c ∧ name ∈ reg.keys) (fun _ c => NamedCounties reg F c) := by
      intro d hd s hs
      refine ⟨fun i n d' h => ?_, Dict.mem_keys_iff.2 ⟨u, hu⟩⟩
      simp only at h
      split at h
      · rename_i hi
        subst hi
        by_cases hn : n = name
        · subst hn
          exact ⟨v, u, hv, hu, hd⟩
        · rw [Dict.get?_set_ne _ _ hn] at h
          exact hs i n d' h
      · exact hs i n d' h
    dsimp only
    rcases hp : F.truthyParent v with _ | r
    · refine M.Sat.bindI (M.Sat.liftI (fun _ _ => trivial) (fun _ _ _ h => h)) (fun d _ => hstore d (fun h1 ⟨x, hx⟩ => ?_))
      obtain ⟨r, hr⟩ := Option.ne_none_iff_exists'.1 h1
      rw [truthyParent_of_nodes hF hv hr hx] at hp
      cases hp
    · refine M.Sat.bindI (ih u.partitionName r) (fun prev hprev => ?_)
      exact M.Sat.bindI (M.Sat.liftI (fun _ _ => trivial) (fun _ _ _ h => h)) (fun d _ => hstore d (fun _ _ => hprev))

theorem namedCounties_after (hD : D.graph.WF) {ops : List (TallyOp V P)} (hops : ∀ op ∈ ops, op.WF) :
    NamedCounties reg (CountyWorld.after D ups reg ops).frame (CountyWorld.after D ups reg ops).caches := by
  refine county_induction hD (NamedCounties reg) (fun p name d h => by simp at h) ?_ ?_ hops
  · intro F hF _ limit name p c hc
    have := countyGet_named (reg := reg) hF limit name p c hc
    revert this
    rcases countyGet F reg limit name p c with ⟨_ | a, s'⟩
    · exact fun h => h
    · exact fun h => h.1
  · intro F op hF hop c hc
    cases op with
    | create d =>
      unfold TallyWorld.step
      simp only
      rcases hr : F.create d with e | F'
      · exact hc
      · obtain ⟨a, rfl, -⟩ := create_ok hop hr
        intro p name d' hd
        obtain ⟨v, u, hv, hu, hk⟩ := hc p name d' hd
        exact ⟨v, u, view_push_old hv, hu, hk⟩
    | flip r f =>
      unfold TallyWorld.step
      simp only
      rcases hr : F.flip r f with e | F'
      · exact hc
      · obtain ⟨-, -, x, b, hx, hb, -⟩ := hF.flip hop hr
        obtain ⟨flows, ef, hfl, -⟩ := (flip_frame hF hop hx).2 b hb
        rw [hr] at hfl
        cases hfl
        intro p name d' hd
        obtain ⟨v, u, hv, hu, hk⟩ := hc p name d' hd
        exact ⟨v, u, view_push_old hv, hu, hk⟩
    | lookup p name limit => exact hc
    | eraseParent r =>
      intro p name d' hd
      obtain ⟨v, u, hv, hu, hk⟩ := hc p name d' hd
      refine ⟨_, u, view_eraseParent hv, hu, ?_⟩
      by_cases hpr : p = r
      · rw [if_pos hpr]
        exact fun h => absurd rfl h
      · rw [if_neg hpr]
        obtain ⟨-, hst⟩ := tallyFrame_step (reg := Dict.empty) (W := ⟨F, fun _ => Dict.empty⟩) hF hop
        rw [hst.data]
        exact hk

/-- **C119** (nothing under the name) If nothing is registered under the `partition_name`, then in every history every look-up on an object with a parent is a `KeyError`, and so is
`refuse_new_splits` with that updater. -/
theorem C119_unregistered (hD : D.graph.WF) (hne : D.graph.nodes.Nonempty) {ops : List (TallyOp V P)} (hops : ∀ op ∈ ops, op.WF) {p limit : ℕ} {name : String} {v : View V P}
    {u : CountyUpd} (hv : (CountyWorld.after D ups reg ops).frame.view p = some v) (hp : v.parent ≠ none) (hu : reg.get? name = some u) (hname : u.partitionName ∉ reg.keys) :
    (CountyWorld.after D ups reg ops).get reg p name (limit + 2) = .error .keyError ∧
      (CountyWorld.after D ups reg ops).refuseNew reg name p (limit + 2) = .error .keyError := by
  have key : (CountyWorld.after D ups reg ops).get reg p name (limit + 2) = .error .keyError := by
    have hc := namedCounties_after (ups := ups) (reg := reg) hD hops
    obtain ⟨h1, h2⟩ := countyFrame_inv (ups := ups) (reg := reg) hD hops
    have hnone : ((CountyWorld.after D ups reg ops).caches p).get? name = none := by
      rcases h : ((CountyWorld.after D ups reg ops).caches p).get? name with _ | d
      · rfl
      · obtain ⟨v', u', hv', hu', hk⟩ := hc p name d h
        rw [hv] at hv'; cases hv'
        rw [hu] at hu'; cases hu'
        exact absurd (hk hp (by rw [h2]; exact hne)) hname
    obtain ⟨r, hr⟩ := Option.ne_none_iff_exists'.1 hp
    obtain ⟨x, hx⟩ := hne
    have ht := truthyParent_of_nodes h1 hv hr (x := x) (by rw [h2]; exact hx)
    have hnone' : ((CountyWorld.after D ups reg ops).caches r).get? u.partitionName = none := by
      rcases h : ((CountyWorld.after D ups reg ops).caches r).get? u.partitionName with _ | d
      · rfl
      · obtain ⟨_, u', _, hu', _⟩ := hc r u.partitionName d h
        exact absurd (Dict.mem_keys_iff.2 ⟨u', hu'⟩) hname
    have hname' : reg.get? u.partitionName = none := by
      rcases h : reg.get? u.partitionName with _ | u'
      · rfl
      · exact absurd (Dict.mem_keys_iff.2 ⟨u', h⟩) hname
    unfold CountyWorld.get
    generalize (CountyWorld.after D ups reg ops).frame = F at *
    generalize (CountyWorld.after D ups reg ops).caches = c at *
    have hrec : countyGet F reg (limit + 1) u.partitionName r c = (.error .keyError, c) := by
      unfold countyGet
      rw [show ∀ (f : CountyCaches V P → M (CountyCaches V P) (Dict String (CountyInfo V P))), (M.read >>= f) c = f c c from fun _ => rfl]
      simp only [hnone', hname']
      rfl
    unfold countyGet
    rw [show ∀ (f : CountyCaches V P → M (CountyCaches V P) (Dict String (CountyInfo V P))), (M.read >>= f) c = f c c from fun _ => rfl]
    simp only [hnone, hu, hv, ht]
    rw [M.bind_error hrec]
  refine ⟨key, ?_⟩
  unfold CountyWorld.refuseNew
  rw [key]

/-- **C119** (the other updater speaks for it) A child's value under a name whose `partition_name` is another `county_splits` is the value of that other one - so `refuse_new_splits`
with the one updater refuses the children that split counties of the other, and no others. -/
theorem C119_same_value (hF : FrameInv F) {c : CountyCaches V P} {limit p r : ℕ} {name : String} {u u' : CountyUpd} {v : View V P} (hne : F.data.graph.nodes.Nonempty)
    (hc : (c p).get? name = none) (hc' : (c p).get? u.partitionName = none) (hu : reg.get? name = some u) (hu' : reg.get? u.partitionName = some u')
    (hown : u'.partitionName = u.partitionName) (hv : F.view p = some v) (hp : v.parent = some r) :
    (CountyWorld.mk F c).get reg p name limit = (CountyWorld.mk F c).get reg p u.partitionName limit ∧
      (CountyWorld.mk F c).refuseNew reg name p limit = (CountyWorld.mk F c).refuseNew reg u.partitionName p limit := by
  have key : (CountyWorld.mk F c).get reg p name limit = (CountyWorld.mk F c).get reg p u.partitionName limit := by
    obtain ⟨x, hx⟩ := hne
    have ht := truthyParent_of_nodes hF hv hp hx
    unfold CountyWorld.get
    cases limit with
    | zero => rfl
    | succ limit =>
      obtain ⟨X, h1⟩ : ∃ X, ∀ n w, (c p).get? n = none → reg.get? n = some w → w.partitionName = u.partitionName → (countyGet F reg (limit + 1) n p c).1 = X := by
        rcases hg : countyGet F reg limit u.partitionName r c with ⟨e | prev, c'⟩
        · refine ⟨.error e, fun n w g1 g2 g3 => ?_⟩
          unfold countyGet
          rw [show ∀ (f : CountyCaches V P → M (CountyCaches V P) (Dict String (CountyInfo V P))), (M.read >>= f) c = f c c from fun _ => rfl]
          simp only [g1, g2, hv, ht, g3]
          rw [M.bind_error hg]
        · refine ⟨countySplitsStep v.assignment.mapping prev, fun n w g1 g2 g3 => ?_⟩
          unfold countyGet
          rw [show ∀ (f : CountyCaches V P → M (CountyCaches V P) (Dict String (CountyInfo V P))), (M.read >>= f) c = f c c from fun _ => rfl]
          simp only [g1, g2, hv, ht, g3]
          rw [M.bind_ok hg]
          cases countySplitsStep v.assignment.mapping prev <;> rfl
      exact (h1 name u hc hu rfl).trans (h1 u.partitionName u' hc' hu' hown).symm
  refine ⟨key, ?_⟩
  unfold CountyWorld.refuseNew
  rw [key]

end histories

/-! ## Examples -/

/-- three nodes in a row; counties {0, 1} and {2}, towns {0} and {1, 2} -/
def townPath : GraphData ℕ := { exData with graph := ⟨{0, 1, 2}, {(0, 1), (1, 2)}⟩, region := fun f v => if f = "TOWN" then (if v = 0 then "S" else "T") else (if v < 2 then "A" else "B") }

theorem townPath_wf : townPath.graph.WF := by constructor <;> decide

/-- `{"counties": county_splits("counties", "COUNTY"), "towns": county_splits("towns", "TOWN")}` -/
def goodCounties : CountyRegistry := ⟨[("counties", countySplitsMake "counties" "COUNTY"), ("towns", countySplitsMake "towns" "TOWN")]⟩

/-- `{"counties": county_splits("towns", "COUNTY"), "towns": county_splits("towns", "TOWN")}` -/
def badCounties : CountyRegistry := ⟨[("counties", countySplitsMake "towns" "COUNTY"), ("towns", countySplitsMake "towns" "TOWN")]⟩

/-- `{"counties": county_splits("county_splits", "COUNTY")}` -/
def noCounties : CountyRegistry := ⟨[("counties", countySplitsMake "county_splits" "COUNTY")]⟩

example : FitCountyNames townPath goodCounties := by
  refine C119_own_names (fun name u h => ?_)
  rw [← Dict.mem_entries_iff (by unfold Dict.WF; decide)] at h
  simp only [goodCounties, List.mem_cons, Prod.mk.injEq, List.not_mem_nil, or_false] at h
  rcases h with ⟨rfl, rfl⟩ | ⟨rfl, rfl⟩ <;> rfl

example : ¬ FitCountyNames townPath badCounties := by
  intro h
  obtain ⟨u', h1, h2⟩ := h "counties" (countySplitsMake "towns" "COUNTY") (by decide)
  cases (show some (countySplitsMake "towns" "TOWN") = some u' from h1)
  have := h2 0 (by decide)
  revert this
  decide

/-- node 1 moves from the district of 0 to that of 2: the county A is split, the town T no longer -/
example : (CountyWorld.after townPath [] goodCounties censusOps).get goodCounties 1 "counties" 9 = .ok ⟨[("A", ⟨.newSplit, [0, 1], {2, 1}⟩), ("B", ⟨.notSplit, [2], {2}⟩)]⟩ ∧
    (CountyWorld.after townPath [] goodCounties censusOps).refuseNew goodCounties "counties" 1 9 = .ok false := by
  refine ⟨by decide +kernel, by decide +kernel⟩

/-- with the wrong name the "counties" of the child are the towns, and `refuse_new_splits("counties")` accepts the plan that splits A -/
example : (CountyWorld.after townPath [] badCounties censusOps).get badCounties 1 "counties" 9 = .ok ⟨[("S", ⟨.notSplit, [0], {1}⟩), ("T", ⟨.notSplit, [1, 2], {2}⟩)]⟩ ∧
    (CountyWorld.after townPath [] badCounties censusOps).get badCounties 1 "towns" 9 = .ok ⟨[("S", ⟨.notSplit, [0], {1}⟩), ("T", ⟨.notSplit, [1, 2], {2}⟩)]⟩ ∧
    (CountyWorld.after townPath [] badCounties censusOps).refuseNew badCounties "counties" 1 9 = .ok true := by
  refine ⟨by decide +kernel, by decide +kernel, by decide +kernel⟩

/-- with an unregistered name the first plan has counties and its children have none -/
example : (CountyWorld.after townPath [] noCounties censusOps).get noCounties 0 "counties" 9 = .ok ⟨[("A", ⟨.notSplit, [0, 1], {1}⟩), ("B", ⟨.notSplit, [2], {2}⟩)]⟩ ∧
    (CountyWorld.after townPath [] noCounties censusOps).get noCounties 1 "counties" 9 = .error .keyError := by
  refine ⟨by decide +kernel, by decide +kernel⟩

/-- the hypotheses of `C119_unregistered` hold in this history -/
example : ∃ v u, (CountyWorld.after townPath [] noCounties censusOps).frame.view 1 = some v ∧ v.parent ≠ none ∧ noCounties.get? "counties" = some u ∧
    u.partitionName ∉ noCounties.keys :=
  ⟨_, _, rfl, by decide, rfl, by decide⟩

end GC

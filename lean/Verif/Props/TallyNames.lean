import Verif.Model.TallyNames
import Verif.Props.Updaters
import Verif.Lemmas.TreeCuts
import Mathlib.Data.Finset.Sort
import Mathlib.Tactic.Linarith

/-!
# C108: under which names tallies are right

A tally that is asked for on a child looks up its alias on the parent.  All look-ups of all histories are right exactly if every
registered tally has an alias under which a tally of the same columns is registered (`C108_names`); a tally under its own alias is such a tally
(`C108_own_names`).  What comes out otherwise is the parent's value under the alias plus the change of the tally's own columns (`C108_change`), which is wrong as soon as the two
tallies differ on a district of the parent (`C108_other_tally`), or a `KeyError` (`C108_unregistered_alias`).
-/

set_option linter.unusedSectionVars false
set_option autoImplicit false

namespace GC

variable {V P : Type} [LinearOrder V] [DecidableEq P]

/-- the sum of the columns of the tally at a node -/
def TallyUpd.val (u : TallyUpd) (q : String → V → ℚ) (v : V) : ℚ := (u.fields.map (fun f => q f v)).sum

/-- under the alias of every registered tally there is a tally with the same values -/
def FitNames (nodes : Finset V) (q : String → V → ℚ) (reg : Registry) : Prop :=
  ∀ name u, reg.get? name = some u → ∃ u', reg.get? u.aliasName = some u' ∧ ∀ v ∈ nodes, u'.val q v = u.val q v

/-- The dictionaries passed by the caller have unique keys. -/
def TallyOp.WF : TallyOp V P → Prop
  | .create d => d.WF
  | .flip _ f => f.WF
  | _ => True

/-- what a right tally says: the sums over the districts -/
def TallyRight (val : V → ℚ) (a : Assignment V P) (d : Dict P Num) : Prop :=
  (∀ part y, d.get? part = some y → ∃ s, a.parts.get? part = some s ∧ y = ((∑ n ∈ s, val n : ℚ) : Num)) ∧
    ∀ part s, a.parts.get? part = some s → s.Nonempty → d.get? part = some ((∑ n ∈ s, val n : ℚ) : Num)

/-- no ancestor has an empty district -/
def Frame.NoEmpty (F : Frame V P) (p : ℕ) : Prop :=
  ∀ i w part s, F.Ancestor p i → F.view i = some w → w.assignment.parts.get? part = some s → s.Nonempty

section values
variable {D : GraphData V} {q : String → V → ℚ}

/-- the columns are numbers -/
def Numeric (D : GraphData V) (q : String → V → ℚ) : Prop := ∀ f v, D.col f v = ((q f v : ℚ) : Num)

theorem TallyUpd.val_coe (hq : Numeric D q) (u : TallyUpd) (v : V) : tallyFromNode D u.fields v = ((u.val q v : ℚ) : Num) :=
  tallyFromNode_coe (fun f _ => hq f) v

theorem TallyRight.congr {val val' : V → ℚ} {a : Assignment V P} {nodes : Finset V} (ha : a.Coherent) (hcov : a.Covers nodes) (h : ∀ v ∈ nodes, val v = val' v) {d : Dict P Num}
    (hd : TallyRight val a d) : TallyRight val' a d := by
  have hsum : ∀ part s, a.parts.get? part = some s → ∑ n ∈ s, val n = ∑ n ∈ s, val' n := fun part s hs =>
    Finset.sum_congr rfl (fun v hv => h v ((hcov v).1 (Dict.mem_keys_iff.2 ⟨part, (ha.agree part s hs v).1 hv⟩)))
  refine ⟨fun part y hy => ?_, fun part s hs hne => ?_⟩
  · obtain ⟨s, hs, e⟩ := hd.1 part y hy
    exact ⟨s, hs, by rw [e, hsum part s hs]⟩
  · rw [hd.2 part s hs hne, hsum part s hs]

theorem TallyRight.ok {val : V → Num} {q : V → ℚ} (h : ∀ v, val v = ((q v : ℚ) : Num)) {a : Assignment V P} (moved : V → Prop) {d : Dict P Num} (hd : TallyRight q a d) :
    TallyOK val moved a d := by
  intro _
  refine ⟨fun p x hx => ?_, fun p v hv _ => ?_, fun p hp => ?_⟩
  · obtain ⟨s, hs, e⟩ := hd.1 p x hx
    rw [e, sumSkipNaN_of_coe h, get?_partOf hs]
  · unfold Assignment.partOf at hv
    rcases hs : a.parts.get? p with _ | s
    · rw [hs] at hv; simp at hv
    · rw [hs] at hv
      exact Dict.mem_keys_iff.2 ⟨_, hd.2 p s hs ⟨v, hv⟩⟩
  · obtain ⟨x, hx⟩ := Dict.mem_keys_iff.1 hp
    obtain ⟨s, hs, -⟩ := hd.1 p x hx
    exact Dict.mem_keys_iff.2 ⟨s, hs⟩

theorem right_of_ok {val : V → Num} {q : V → ℚ} (h : ∀ v, val v = ((q v : ℚ) : Num)) {moved : V → Prop} {a : Assignment V P} {d : Dict P Num} (ht : TallyOK val moved a d) :
    TallyRight q a d := tally_exact h ht

/-- `_update_tally` adds to every entry of `parent[alias]` the change of the tally's own columns -/
theorem tallyStep_change {a b : Assignment V P} (ha : a.Coherent) {flips : Dict V P} {flows : Dict P (Flow V)} (hs : FlipSpec a flips b) (hf : FlowsSpec a.mapping flips flows)
    {val : V → Num} {q : V → ℚ} (h : ∀ v, val v = ((q v : ℚ) : Num)) {d d' : Dict P Num} (hd : tallyStep val flows d = .ok d') (part : P) :
    d'.get? part = (d.get? part).map (fun x => x + ((∑ n ∈ b.partOf part, q n - ∑ n ∈ a.partOf part, q n : ℚ) : Num)) := by
  have hd' : flows.entries.foldlM (fun (t : Dict P Num) e => do
      let y ← (do let old ← d.get e.1; return Num.sub old (sumOver val e.2.out) + sumOver val e.2.inn)
      return t.set e.1 y) d = (.ok d' : Py _) := by
    rw [← hd]; unfold tallyStep; simp only [bind_assoc, pure_bind]
  obtain ⟨k1, k2⟩ := foldlM_set_ok _ _ hf.wf _ _ hd'
  by_cases hp : part ∈ flows.keys
  · obtain ⟨e, he, rfl⟩ := List.mem_map.1 hp
    obtain ⟨y, hy, hy'⟩ := k1 e he
    rw [Py.bind_eq_ok] at hy
    obtain ⟨x, hx, hy⟩ := hy
    rw [Py.pure_eq_ok] at hy
    rw [Dict.get_eq_ok_iff] at hx
    obtain ⟨f1, f2⟩ := flow_entry hf.wf he
    rw [hy', ← hy, hx, f1, f2, Option.map_some, sum_partOf_flow ha hs hf e.1 q]
    have hso : ∀ s : Finset V, sumOver val s = ((∑ n ∈ s, q n : ℚ) : Num) := by
      intro s
      rw [sumOver_eq (fun v _ => by rw [h]; exact WithBot.coe_ne_bot), sumSkipNaN_of_coe h]
    rw [hso, hso]
    congr 1
    induction x using WithBot.recBotCoe with
    | bot => rfl
    | coe x =>
      rw [Num.sub_coe, ← WithBot.coe_add, ← WithBot.coe_add]
      congr 1
      ring
  · rw [k2 part hp, partOf_noflow ha hs hf hp, sub_self]
    rcases d.get? part with _ | x
    · rfl
    · rw [Option.map_some]
      congr 1
      induction x using WithBot.recBotCoe with
      | bot => rfl
      | coe x => rw [← WithBot.coe_add, add_zero]

end values

section histories
variable {D : GraphData V} {ups : List Key} {reg : Registry} {q : String → V → ℚ} {F : Frame V P}

/-- every cached tally is right -/
def RightCaches (q : String → V → ℚ) (reg : Registry) (F : Frame V P) (c : TallyCaches P) : Prop :=
  ∀ p name d, (c p).get? name = some d → ∃ v u, F.view p = some v ∧ reg.get? name = some u ∧ TallyRight (u.val q) v.assignment d

theorem RightCaches.set {c : TallyCaches P} (hc : RightCaches q reg F c) {p : ℕ} {name : String} {d : Dict P Num} {v : View V P} {u : TallyUpd} (hv : F.view p = some v)
    (hu : reg.get? name = some u) (hd : TallyRight (u.val q) v.assignment d) : RightCaches q reg F (fun i => if i = p then (c p).set name d else c i) := by
  intro i n d' h
  simp only at h
  split at h
  · rename_i hi
    subst hi
    by_cases hn : n = name
    · subst hn
      rw [Dict.get?_set_self] at h
      cases h
      exact ⟨v, u, hv, hu, hd⟩
    · rw [Dict.get?_set_ne _ _ hn] at h
      exact hc i n d' h
  · exact hc i n d' h

theorem RightCaches.stable {F' : Frame V P} (h : Stable F F') {c : TallyCaches P} (hc : RightCaches q reg F c) : RightCaches q reg F' c := by
  intro p name d hd
  obtain ⟨v, u, hv, hu, hr⟩ := hc p name d hd
  obtain ⟨v', h1, h2⟩ := h.view p v hv
  exact ⟨v', u, h1, hu, by rw [h2]; exact hr⟩

/-- with fitting names every look-up is right, and it fails only if it is too deep, or the name is unknown, or an ancestor has an empty district -/
theorem tallyGet_sat (hF : FrameInv F) (hq : Numeric F.data q) (hfit : FitNames F.data.graph.nodes q reg) (limit : ℕ) : ∀ (name : String) (p : ℕ),
    M.Sat (RightCaches q reg F) (tallyGet F reg limit name p)
      (fun d c => RightCaches q reg F c ∧ ∃ v u, F.view p = some v ∧ reg.get? name = some u ∧ TallyRight (u.val q) v.assignment d)
      (fun _ c => RightCaches q reg F c ∧ ¬(F.Shallow limit p ∧ name ∈ reg.keys ∧ p < F.objs.length ∧ F.NoEmpty p)) := by
  induction limit with
  | zero =>
    intro name p
    exact M.Sat.raise (fun c hc => ⟨hc, fun h => h.1⟩)
  | succ limit ih =>
    intro name p
    unfold tallyGet
    refine M.Sat.read_bind (fun c hc => ?_)
    rcases hcache : (c p).get? name with _ | d
    swap
    · exact M.Sat.pure (fun s hs => hs ▸ ⟨hc, hc p name d hcache⟩)
    rcases hu : reg.get? name with _ | u
    · exact M.Sat.raise (fun s hs => hs ▸ ⟨hc, fun h => (by
        obtain ⟨u, hu'⟩ := Dict.mem_keys_iff.1 h.2.1
        rw [hu] at hu'; cases hu')⟩)
    rcases hv : F.view p with _ | v
    · exact M.Sat.raise (fun s hs => hs ▸ ⟨hc, fun h => (by
        obtain ⟨v, hv'⟩ := hF.exists_view h.2.2.1
        rw [hv] at hv'; cases hv')⟩)
    have hstore : ∀ d, TallyRight (u.val q) v.assignment d → M.Sat (RightCaches q reg F) (tallyGet.store p name d)
        (fun d c => RightCaches q reg F c ∧ ∃ v' u', some v = some v' ∧ some u = some u' ∧ TallyRight (u'.val q) v'.assignment d)
        (fun _ c => RightCaches q reg F c ∧ ¬(F.Shallow (limit + 1) p ∧ name ∈ reg.keys ∧ p < F.objs.length ∧ F.NoEmpty p)) :=
      fun d hd s hs => ⟨hs.set hv hu hd, v, u, rfl, rfl, hd⟩
    refine M.Sat.conseq (P := RightCaches q reg F) ?_ (fun s hs => hs ▸ hc) (fun _ _ h => h) (fun _ _ h => h)
    have hcoe := u.val_coe hq
    have hcoh := hF.coherent p v hv
    dsimp only
    rcases hp : v.parent with _ | r
    · exact hstore _ (right_of_ok hcoe (tallyInit_ok hcoh _ (fun _ => True)))
    · obtain ⟨w, hl⟩ := hF.link p v r hv hp
      obtain ⟨fl, flows, h1, h2, h3, h4, h5, -⟩ := hl.ex
      have hpar : (F.objs[p]?).bind (·.parent) = some r := by rw [Frame.parent_of_view hv, hp]
      obtain ⟨u', hu', hval⟩ := hfit name u hu
      have hrec := M.Sat.conseq (ih u.aliasName r) (fun _ h => h) (fun _ _ h => h)
        (E' := fun _ c => RightCaches q reg F c ∧ ¬(F.Shallow (limit + 1) p ∧ name ∈ reg.keys ∧ p < F.objs.length ∧ F.NoEmpty p))
        (fun e s h => ⟨h.1, fun g => h.2 ⟨g.1 r hpar, Dict.mem_keys_iff.2 ⟨u', hu'⟩, Frame.lt_of_view hl.view, fun i w' part s hi => g.2.2.2 i w' part s (.step hpar hi)⟩⟩)
      refine M.Sat.bindI hrec ?_
      rintro prev ⟨w', u'', hw', hu'', hprev⟩
      rw [hl.view] at hw'; cases hw'
      rw [hu'] at hu''; cases hu''
      have hprev' : TallyRight (u.val q) w.assignment prev := hprev.congr (hF.coherent r w hl.view) (hF.covers r w hl.view) hval
      refine M.Sat.bind_ok (by rw [h2]; rfl) ?_
      rcases hd : tallyStep (tallyFromNode F.data u.fields) flows prev with e | d
      · refine M.Sat.bind_error rfl (fun c hc => ⟨hc, fun hs => ?_⟩)
        obtain ⟨x, hx, hx'⟩ := tallyStep_error (Or.inl hd)
        have hkey : x ∈ w.assignment.parts.keys := by
          rw [h5.mem_keys] at hx
          obtain ⟨n, q', hu1, hu2, hu3⟩ := hx
          rcases hu3 with rfl | hu3
          · rw [← h4.keys]
            apply h4.coherent.complete n
            rw [h4.get?, hu1]; rfl
          · exact (hF.coherent r w hl.view).complete n x hu3
        obtain ⟨s, hs'⟩ := Dict.mem_keys_iff.1 hkey
        exact hx' (Dict.mem_keys_iff.2 ⟨_, hprev'.2 x s hs' (hs.2.2.2 r w x s (.parent hpar) hl.view hs')⟩)
      · refine M.Sat.bind_ok rfl (hstore d (right_of_ok hcoe (moved := fun _ => True) ?_))
        exact tallyStep_ok (hF.coherent r w hl.view) h4 h5 _ (fun _ => True) _ (fun _ _ => trivial) (fun _ _ => trivial) (hprev'.ok hcoe _) hd

/-- objects and caches after a history, whatever the names are -/
theorem tallyFrame_step {W : TallyWorld V P} (h : FrameInv W.frame) {op : TallyOp V P} (hop : op.WF) : FrameInv (W.step reg op).frame ∧ Stable W.frame (W.step reg op).frame := by
  cases op with
  | create d =>
    unfold TallyWorld.step
    simp only
    rcases hr : W.frame.create d with e | F
    · exact ⟨h, Stable.refl _⟩
    · exact h.create hop hr
  | flip p f =>
    unfold TallyWorld.step
    simp only
    rcases hr : W.frame.flip p f with e | F
    · exact ⟨h, Stable.refl _⟩
    · obtain ⟨h1, h2, -⟩ := h.flip hop hr
      exact ⟨h1, h2⟩
  | lookup p k limit => exact ⟨h, Stable.refl _⟩
  | eraseParent p => exact h.eraseParent p

theorem tallyFrame_after (hD : D.graph.WF) {ops : List (TallyOp V P)} (hops : ∀ op ∈ ops, op.WF) :
    FrameInv (TallyWorld.after D ups reg ops).frame ∧ (TallyWorld.after D ups reg ops).frame.data = D ∧
      (FitNames D.graph.nodes q reg → Numeric D q → RightCaches q reg (TallyWorld.after D ups reg ops).frame (TallyWorld.after D ups reg ops).caches) := by
  have h0 : FrameInv (⟨D, ups, [], [], []⟩ : Frame V P) := (heapInv_start (P := P) hD ups).frame
  have key : ∀ (ops : List (TallyOp V P)) (W : TallyWorld V P), (∀ op ∈ ops, op.WF) → FrameInv W.frame → W.frame.data = D →
      (FitNames D.graph.nodes q reg → Numeric D q → RightCaches q reg W.frame W.caches) →
      FrameInv (ops.foldl (TallyWorld.step reg) W).frame ∧ (ops.foldl (TallyWorld.step reg) W).frame.data = D ∧
        (FitNames D.graph.nodes q reg → Numeric D q → RightCaches q reg (ops.foldl (TallyWorld.step reg) W).frame (ops.foldl (TallyWorld.step reg) W).caches) := by
    intro ops
    induction ops with
    | nil => exact fun W _ h1 h2 h3 => ⟨h1, h2, h3⟩
    | cons op ops ih =>
      intro W hops h1 h2 h3
      obtain ⟨g1, g2⟩ := tallyFrame_step (reg := reg) h1 (hops op List.mem_cons_self)
      refine ih _ (fun op hop => hops op (List.mem_cons_of_mem _ hop)) g1 (g2.data.trans h2) (fun hfit hq => ?_)
      have hst := (h3 hfit hq).stable g2
      cases op with
      | create d => revert hst; unfold TallyWorld.step; simp only; cases W.frame.create d <;> exact id
      | flip p f => revert hst; unfold TallyWorld.step; simp only; cases W.frame.flip p f <;> exact id
      | lookup p name limit =>
        have := tallyGet_sat h1 (h2 ▸ hq) (h2 ▸ hfit) limit name p W.caches (h3 hfit hq)
        show RightCaches q reg W.frame (tallyGet W.frame reg limit name p W.caches).2
        revert this
        rcases tallyGet W.frame reg limit name p W.caches with ⟨_ | a, s'⟩
        · exact fun h => h.1
        · exact fun h => h.1
      | eraseParent p => exact hst
  exact key ops _ hops h0 rfl (fun _ _ p name d h => by simp at h)

/-- **C108 (what comes out).**  Whatever the names are, a tally computed on a child is the parent's value under the alias plus the change of the tally's own columns. -/
theorem C108_change (hF : FrameInv F) (hq : Numeric F.data q) {c : TallyCaches P} {limit p r : ℕ} {name : String} {u : TallyUpd} {v : View V P} {d : Dict P Num}
    (hc : (c p).get? name = none) (hu : reg.get? name = some u) (hv : F.view p = some v) (hp : v.parent = some r)
    (hd : (tallyGet F reg (limit + 1) name p c).1 = .ok d) :
    ∃ prev w, (tallyGet F reg limit u.aliasName r c).1 = .ok prev ∧ F.view r = some w ∧
      ∀ part, d.get? part = (prev.get? part).map
        (fun x => x + ((∑ n ∈ v.assignment.partOf part, u.val q n - ∑ n ∈ w.assignment.partOf part, u.val q n : ℚ) : Num)) := by
  obtain ⟨w, hl⟩ := hF.link p v r hv hp
  obtain ⟨fl, flows, h1, h2, h3, h4, h5, -⟩ := hl.ex
  unfold tallyGet at hd
  rw [show ∀ (f : TallyCaches P → M (TallyCaches P) (Dict P Num)), ((M.read >>= f) c).1 = (f c c).1 from fun _ => rfl] at hd
  simp only [hc, hu, hv, hp, h2] at hd
  rcases hg : tallyGet F reg limit u.aliasName r c with ⟨_ | prev, c'⟩
  · rw [M.bind_error hg] at hd; cases hd
  rw [M.bind_ok hg] at hd
  change (((M.lift (tallyStep (tallyFromNode F.data u.fields) flows prev)) >>= fun d => tallyGet.store p name d) c').1 = .ok d at hd
  rcases ht : tallyStep (tallyFromNode F.data u.fields) flows prev with e | d'
  · rw [ht] at hd; cases hd
  · rw [ht] at hd
    change Except.ok d' = Except.ok d at hd
    cases hd
    exact ⟨prev, w, rfl, hl.view, tallyStep_change (hF.coherent r w hl.view) h4 h5 (u.val_coe hq) ht⟩

/-- a tally computed on an object without parent is right, whatever the names are -/
theorem tallyGet_root (hF : FrameInv F) (hq : Numeric F.data q) {c : TallyCaches P} {limit p : ℕ} {name : String} {v : View V P} {d : Dict P Num}
    (hc : (c p).get? name = none) (hv : F.view p = some v) (hp : v.parent = none) (hd : (tallyGet F reg limit name p c).1 = .ok d) :
    ∃ u, reg.get? name = some u ∧ TallyRight (u.val q) v.assignment d := by
  cases limit with
  | zero => cases hd
  | succ limit =>
    unfold tallyGet at hd
    rw [show ∀ (f : TallyCaches P → M (TallyCaches P) (Dict P Num)), ((M.read >>= f) c).1 = (f c c).1 from fun _ => rfl] at hd
    rcases hu : reg.get? name with _ | u
    · simp only [hc, hu] at hd; cases hd
    · simp only [hc, hu, hv, hp] at hd
      change Except.ok _ = Except.ok d at hd
      cases hd
      exact ⟨u, rfl, right_of_ok (u.val_coe hq) (tallyInit_ok (hF.coherent p v hv) _ (fun _ => True))⟩

theorem TallyRight.partOf {val : V → ℚ} {a : Assignment V P} {d : Dict P Num} (h : TallyRight val a d) {part : P} (hne : (a.partOf part).Nonempty) :
    d.get? part = some ((∑ n ∈ a.partOf part, val n : ℚ) : Num) := by
  unfold Assignment.partOf at hne ⊢
  rcases hs : a.parts.get? part with _ | s
  · rw [hs] at hne; simp at hne
  · rw [hs] at hne
    exact h.2 part s hs hne

/-- **C108 (another tally under the alias).**  If the alias belongs to another tally, the value on a child of an object without parent is off by the difference of the two
tallies on the parent's district; so it is right exactly if they agree there. -/
theorem C108_other_tally (hF : FrameInv F) (hq : Numeric F.data q) {c : TallyCaches P} {limit p r : ℕ} {name : String} {u u' : TallyUpd} {v w : View V P} {d : Dict P Num}
    (hc : (c p).get? name = none) (hc' : (c r).get? u.aliasName = none) (hu : reg.get? name = some u) (hu' : reg.get? u.aliasName = some u')
    (hv : F.view p = some v) (hp : v.parent = some r) (hw : F.view r = some w) (hr : w.parent = none)
    (hd : (tallyGet F reg (limit + 1) name p c).1 = .ok d) {part : P} (hpart : (w.assignment.partOf part).Nonempty) :
    d.get? part = some ((∑ n ∈ v.assignment.partOf part, u.val q n +
        (∑ n ∈ w.assignment.partOf part, u'.val q n - ∑ n ∈ w.assignment.partOf part, u.val q n) : ℚ) : Num) ∧
      (d.get? part = some ((∑ n ∈ v.assignment.partOf part, u.val q n : ℚ) : Num) ↔
        ∑ n ∈ w.assignment.partOf part, u'.val q n = ∑ n ∈ w.assignment.partOf part, u.val q n) := by
  obtain ⟨prev, w', h1, h2, h3⟩ := C108_change hF hq hc hu hv hp hd
  rw [hw] at h2; cases h2
  obtain ⟨u'', g1, g2⟩ := tallyGet_root hF hq hc' hw hr h1
  rw [hu'] at g1; cases g1
  have e : d.get? part = some ((∑ n ∈ v.assignment.partOf part, u.val q n +
        (∑ n ∈ w.assignment.partOf part, u'.val q n - ∑ n ∈ w.assignment.partOf part, u.val q n) : ℚ) : Num) := by
    rw [h3, g2.partOf hpart, Option.map_some, ← WithBot.coe_add]
    congr 2
    ring
  refine ⟨e, ?_⟩
  rw [e, Option.some_inj, WithBot.coe_inj]
  constructor
  · intro h; linarith
  · intro h; linarith

/-- the plan `g` on the nodes, as a dictionary -/
def planDict (nodes : Finset V) (g : V → P) : Dict V P := ⟨(nodes.sort (· ≤ ·)).map (fun v => (v, g v))⟩

theorem planDict_wf (nodes : Finset V) (g : V → P) : (planDict nodes g).WF := by
  unfold Dict.WF Dict.keys planDict
  rw [List.map_map]
  exact (List.map_id _).symm ▸ nodes.sort_nodup (· ≤ ·)

theorem planDict_get (nodes : Finset V) (g : V → P) (v : V) (p : P) : (planDict nodes g).get? v = some p ↔ v ∈ nodes ∧ g v = p := by
  rw [← Dict.mem_entries_iff (planDict_wf nodes g)]
  unfold planDict
  simp only [List.mem_map, Finset.mem_sort, Prod.mk.injEq]
  constructor
  · rintro ⟨x, hx, rfl, rfl⟩; exact ⟨hx, rfl⟩
  · rintro ⟨h1, h2⟩; exact ⟨v, h1, rfl, h2⟩

/-- a plan and its copy by an empty flip -/
theorem two_objects (hD : D.graph.WF) (g : V → P) : ∃ ops : List (TallyOp V P), (∀ op ∈ ops, op.WF) ∧ (∀ op ∈ ops, ∀ p name limit, op ≠ .lookup p name limit) ∧ ∃ v w : View V P,
    (TallyWorld.after D ups reg ops).frame.view 0 = some w ∧ (TallyWorld.after D ups reg ops).frame.view 1 = some v ∧ w.parent = none ∧ v.parent = some 0 ∧
    (TallyWorld.after D ups reg ops).caches = (fun _ => Dict.empty) ∧ (∀ part n, n ∈ w.assignment.partOf part ↔ n ∈ D.graph.nodes ∧ g n = part) ∧
    (∀ part n, n ∈ v.assignment.partOf part ↔ n ∈ D.graph.nodes ∧ g n = part) ∧ ∀ part s, w.assignment.parts.get? part = some s → s.Nonempty := by
  let F0 : Frame V P := ⟨D, ups, [], [], []⟩
  have h0 : FrameInv F0 := (heapInv_start (P := P) hD ups).frame
  have hwf := planDict_wf D.graph.nodes g
  obtain ⟨a, ha, hco, hget, -⟩ := fromDict_ok hwf
  have hmem : ∀ part n, n ∈ a.partOf part ↔ n ∈ D.graph.nodes ∧ g n = part := fun part n => by
    rw [hco.mem_partOf, hget, planDict_get]
  have hkeys : a.mapping.keys.toFinset = D.graph.nodes := by
    ext n
    rw [List.mem_toFinset, Dict.mem_keys_iff]
    constructor
    · rintro ⟨x, hx⟩
      rw [hget, planDict_get] at hx
      exact hx.1
    · exact fun hn => ⟨g n, by rw [hget, planDict_get]; exact ⟨hn, rfl⟩⟩
  have hcr : F0.create (planDict D.graph.nodes g) = .ok (F0.push a none none none none) := by
    unfold Frame.create
    rw [ha]
    show (if a.mapping.keys.toFinset ≠ D.graph.nodes then _ else _) = _
    rw [if_neg (by rw [hkeys]; simp)]
    rfl
  obtain ⟨h1, -⟩ := h0.create hwf hcr
  have hv0 : (F0.push a none none none none).view 0 = some ⟨a, none, none, none, none⟩ := view_push_new (F := F0)
  have hemp : (⟨[]⟩ : Dict V P).WF := List.nodup_nil
  obtain ⟨b, hb⟩ : ∃ b, a.flip ⟨[]⟩ = .ok b := by
    obtain ⟨b, hb, -⟩ := copy_ok hco
    refine ⟨b, ?_⟩
    unfold Assignment.flip flowsFromChanges
    show a.copy >>= _ = _
    rw [hb]
    rfl
  have hs := flip_ok hco hemp hb
  obtain ⟨flows, ef, hfl, -⟩ := (flip_frame h1 hemp hv0).2 b hb
  have hafter : TallyWorld.after D ups reg [.create (planDict D.graph.nodes g), .flip 0 ⟨[]⟩] =
      ⟨(F0.push a none none none none).push b (some 0) (some ⟨[]⟩) (some flows) ef, fun _ => Dict.empty⟩ := by
    show TallyWorld.step reg (TallyWorld.step reg ⟨F0, _⟩ (.create _)) (.flip 0 ⟨[]⟩) = _
    rw [show TallyWorld.step reg (⟨F0, fun _ => Dict.empty⟩ : TallyWorld V P) (.create (planDict D.graph.nodes g)) = ⟨F0.push a none none none none, fun _ => Dict.empty⟩ by
      unfold TallyWorld.step; simp only [hcr]]
    unfold TallyWorld.step
    simp only [hfl]
  refine ⟨[.create (planDict D.graph.nodes g), .flip 0 ⟨[]⟩], ?_, by simp, ?_⟩
  · intro op hop
    simp only [List.mem_cons, List.not_mem_nil, or_false] at hop
    rcases hop with rfl | rfl
    · exact hwf
    · exact hemp
  rw [hafter]
  refine ⟨_, _, view_push_old hv0, view_push_new (F := F0.push a none none none none), rfl, rfl, rfl, hmem, fun part n => ?_, (h1.fresh 0 _ hv0 rfl).2⟩
  rw [hs.coherent.mem_partOf, hs.get?]
  show (none : Option P).or (a.mapping.get? n) = _ ↔ _
  rw [Option.none_or, ← hco.mem_partOf, hmem]

/-- **C108 (under which names tallies are right).**  Every look-up of every registered tally in every history - on objects with few enough ancestors, none of which has an empty
district - gives the sums over the districts, exactly if under the alias of every registered tally there is a tally with the same values. -/
theorem C108_names [Nontrivial P] (hD : D.graph.WF) (hq : Numeric D q) :
    FitNames D.graph.nodes q reg ↔ ∀ ops : List (TallyOp V P), (∀ op ∈ ops, op.WF) → ∀ p v name u limit, (TallyWorld.after D ups reg ops).frame.view p = some v →
      reg.get? name = some u → (TallyWorld.after D ups reg ops).frame.Shallow limit p → (TallyWorld.after D ups reg ops).frame.NoEmpty p →
      ∃ d, (TallyWorld.after D ups reg ops).get reg p name limit = .ok d ∧ TallyRight (u.val q) v.assignment d := by
  constructor
  · intro hfit ops hops p v name u limit hv hu hs hne
    obtain ⟨h1, h2, h3⟩ := tallyFrame_after (ups := ups) (reg := reg) (q := q) hD hops
    have := tallyGet_sat h1 (by rw [h2]; exact hq) (by rw [h2]; exact hfit) limit name p _ (h3 hfit hq)
    unfold TallyWorld.get
    rcases hg : tallyGet (TallyWorld.after D ups reg ops).frame reg limit name p (TallyWorld.after D ups reg ops).caches with ⟨e | d, c⟩
    · rw [hg] at this
      exact absurd ⟨hs, Dict.mem_keys_iff.2 ⟨u, hu⟩, Frame.lt_of_view hv, hne⟩ this.2
    · rw [hg] at this
      obtain ⟨-, v', u', e1, e2, e3⟩ := this
      rw [hv] at e1; cases e1
      rw [hu] at e2; cases e2
      exact ⟨d, rfl, e3⟩
  · intro h name u hu
    have key : ∀ g : V → P, ∃ u', reg.get? u.aliasName = some u' ∧ ∀ n ∈ D.graph.nodes, (∀ m ∈ D.graph.nodes, g m = g n → m = n) → u'.val q n = u.val q n := by
      intro g
      obtain ⟨ops, hops, -, v, w, hw, hv, hwp, hvp, hcache, hmw, hmv, hne⟩ := two_objects (ups := ups) (reg := reg) hD g
      obtain ⟨h1, h2, -⟩ := tallyFrame_after (ups := ups) (reg := reg) (q := q) hD hops
      have hp1 := Frame.parent_of_view hv
      have hp0 := Frame.parent_of_view hw
      rw [hvp] at hp1
      rw [hwp] at hp0
      have hanc : ∀ i, (TallyWorld.after D ups reg ops).frame.Ancestor 1 i → i = 0 := by
        intro i hi
        cases hi with
        | parent h => rw [hp1] at h; exact (Option.some.inj h).symm
        | step h hr =>
          rw [hp1] at h
          cases h
          cases hr with
          | parent h => rw [hp0] at h; cases h
          | step h _ => rw [hp0] at h; cases h
      obtain ⟨d, hd, hright⟩ := h ops hops 1 v name u 2 hv hu (fun r hr => by
          rw [hp1] at hr
          cases hr
          exact fun r hr => by rw [hp0] at hr; cases hr)
        (fun i x part s hi hx hs => by
          rw [hanc i hi] at hx
          rw [hw] at hx
          cases hx
          exact hne part s hs)
      unfold TallyWorld.get at hd
      rw [hcache] at hd
      obtain ⟨prev, w', hprev, hw', hval⟩ := C108_change (limit := 1) h1 (h2 ▸ hq) (by simp) hu hv hvp hd
      rw [hw] at hw'; cases hw'
      obtain ⟨u', hu', hpr⟩ := tallyGet_root h1 (h2 ▸ hq) (by simp) hw hwp hprev
      refine ⟨u', hu', fun n hn huniq => ?_⟩
      have ew : w.assignment.partOf (g n) = {n} := by
        ext m
        rw [hmw, Finset.mem_singleton]
        exact ⟨fun h => huniq m h.1 h.2, fun h => by rw [h]; exact ⟨hn, rfl⟩⟩
      have ev : v.assignment.partOf (g n) = {n} := by
        ext m
        rw [hmv, Finset.mem_singleton]
        exact ⟨fun h => huniq m h.1 h.2, fun h => by rw [h]; exact ⟨hn, rfl⟩⟩
      have := hval (g n)
      rw [hright.partOf (by rw [ev]; exact Finset.singleton_nonempty n), hpr.partOf (by rw [ew]; exact Finset.singleton_nonempty n), ev, ew] at this
      simp only [Finset.sum_singleton, Option.map_some, sub_self, Option.some_inj] at this
      rw [← WithBot.coe_add, add_zero, WithBot.coe_inj] at this
      exact this.symm
    obtain ⟨p0, p1, hne⟩ := exists_pair_ne P
    obtain ⟨u', hu', -⟩ := key (fun _ => p0)
    refine ⟨u', hu', fun n hn => ?_⟩
    obtain ⟨u'', hu'', hk⟩ := key (fun m => if m = n then p0 else p1)
    rw [hu'] at hu''; cases hu''
    refine hk n hn (fun m _ hm => ?_)
    by_contra hmn
    simp only [if_neg hmn, if_true] at hm
    exact hne hm.symm

/-- **C108 (the usual names).**  Tallies registered under their aliases fit; the alias of a tally of one column without alias is the column. -/
theorem C108_own_names {nodes : Finset V} (h : ∀ name u, reg.get? name = some u → u.aliasName = name) : FitNames nodes q reg :=
  fun name u hu => ⟨u, by rw [h name u hu, hu], fun _ _ => rfl⟩

/-- cached tallies of children have a registered alias -/
def AliasCaches (reg : Registry) (F : Frame V P) (c : TallyCaches P) : Prop :=
  ∀ p name d, (c p).get? name = some d → ∃ v u, F.view p = some v ∧ reg.get? name = some u ∧ (v.parent ≠ none → u.aliasName ∈ reg.keys)

theorem tallyGet_alias (hF : FrameInv F) (limit : ℕ) : ∀ (name : String) (p : ℕ), M.Sat (AliasCaches reg F) (tallyGet F reg limit name p)
      (fun _ c => AliasCaches reg F c ∧ name ∈ reg.keys) (fun _ c => AliasCaches reg F c) := by
  induction limit with
  | zero => exact fun name p => M.Sat.raise (fun c hc => hc)
  | succ limit ih =>
    intro name p
    unfold tallyGet
    refine M.Sat.read_bind (fun c hc => ?_)
    rcases hcache : (c p).get? name with _ | d
    swap
    · refine M.Sat.pure (fun s hs => hs ▸ ⟨hc, ?_⟩)
      obtain ⟨v, u, -, hu, -⟩ := hc p name d hcache
      exact Dict.mem_keys_iff.2 ⟨u, hu⟩
    rcases hu : reg.get? name with _ | u
    · exact M.Sat.raise (fun s hs => hs ▸ hc)
    rcases hv : F.view p with _ | v
    · exact M.Sat.raise (fun s hs => hs ▸ hc)
    refine M.Sat.conseq (P := AliasCaches reg F) ?_ (fun s hs => hs ▸ hc) (fun _ _ h => h) (fun _ _ h => h)
    have hstore : ∀ d, (v.parent ≠ none → u.aliasName ∈ reg.keys) → M.Sat (AliasCaches reg F) (tallyGet.store p name d)
        (fun _ c => AliasCaches reg F c ∧ name ∈ reg.keys) (fun _ c => AliasCaches reg F c) := by
      intro d hd s hs
      refine ⟨fun i n d' h => ?_, Dict.mem_keys_iff.2 ⟨u, hu⟩⟩
      simp only at h
      split at h
      · rename_i hi
        subst hi
        by_cases hn : n = name
        · subst hn
          exact ⟨v, u, hv, hu, hd⟩
        · rw [Dict.get?_set_ne _ _ hn] at h
          exact hs i n d' h
      · exact hs i n d' h
    dsimp only
    rcases hp : v.parent with _ | r
    · exact hstore _ (fun h => absurd hp h)
    · refine M.Sat.bindI (ih u.aliasName r) (fun prev hprev => ?_)
      refine M.Sat.bindI (M.Sat.liftI (fun _ _ => trivial) (fun _ _ _ h => h)) (fun flows _ => ?_)
      exact M.Sat.bindI (M.Sat.liftI (fun _ _ => trivial) (fun _ _ _ h => h)) (fun d _ => hstore d (fun _ => hprev))

theorem tallyAlias_after (hD : D.graph.WF) {ops : List (TallyOp V P)} (hops : ∀ op ∈ ops, op.WF) :
    AliasCaches reg (TallyWorld.after D ups reg ops).frame (TallyWorld.after D ups reg ops).caches := by
  have h0 : FrameInv (⟨D, ups, [], [], []⟩ : Frame V P) := (heapInv_start (P := P) hD ups).frame
  have key : ∀ (ops : List (TallyOp V P)) (W : TallyWorld V P), (∀ op ∈ ops, op.WF) → FrameInv W.frame → AliasCaches reg W.frame W.caches →
      AliasCaches reg (ops.foldl (TallyWorld.step reg) W).frame (ops.foldl (TallyWorld.step reg) W).caches := by
    intro ops
    induction ops with
    | nil => exact fun W _ _ h => h
    | cons op ops ih =>
      intro W hops h1 h2
      obtain ⟨g1, -⟩ := tallyFrame_step (reg := reg) h1 (hops op List.mem_cons_self)
      refine ih _ (fun op hop => hops op (List.mem_cons_of_mem _ hop)) g1 ?_
      have hop := hops op List.mem_cons_self
      cases op with
      | create d =>
        unfold TallyWorld.step
        simp only
        rcases hr : W.frame.create d with e | F
        · exact h2
        · obtain ⟨a, rfl, -⟩ := create_ok hop hr
          intro p name d' hd
          obtain ⟨v, u, hv, hu, hk⟩ := h2 p name d' hd
          exact ⟨v, u, view_push_old hv, hu, hk⟩
      | flip r f =>
        unfold TallyWorld.step
        simp only
        rcases hr : W.frame.flip r f with e | F
        · exact h2
        · obtain ⟨-, -, x, b, hx, hb, -⟩ := h1.flip hop hr
          obtain ⟨flows, ef, hfl, -⟩ := (flip_frame h1 hop hx).2 b hb
          rw [hr] at hfl
          cases hfl
          intro p name d' hd
          obtain ⟨v, u, hv, hu, hk⟩ := h2 p name d' hd
          exact ⟨v, u, view_push_old hv, hu, hk⟩
      | lookup p name limit =>
        have := tallyGet_alias (reg := reg) h1 limit name p W.caches h2
        show AliasCaches reg W.frame (tallyGet W.frame reg limit name p W.caches).2
        revert this
        rcases tallyGet W.frame reg limit name p W.caches with ⟨_ | a, s'⟩
        · exact fun h => h
        · exact fun h => h.1
      | eraseParent r =>
        intro p name d' hd
        obtain ⟨v, u, hv, hu, hk⟩ := h2 p name d' hd
        refine ⟨_, u, view_eraseParent hv, hu, ?_⟩
        by_cases hpr : p = r
        · rw [if_pos hpr]
          exact fun h => absurd rfl h
        · rw [if_neg hpr]
          exact hk
  exact key ops _ hops h0 (fun p name d h => by simp at h)

/-- **C108 (nothing under the alias).**  If nothing is registered under the alias, then in every history every look-up of the tally on an object with a parent is a `KeyError`. -/
theorem C108_unregistered_alias (hD : D.graph.WF) {ops : List (TallyOp V P)} (hops : ∀ op ∈ ops, op.WF) {p limit : ℕ} {name : String} {v : View V P} {u : TallyUpd}
    (hv : (TallyWorld.after D ups reg ops).frame.view p = some v) (hp : v.parent ≠ none) (hu : reg.get? name = some u) (halias : u.aliasName ∉ reg.keys) :
    (TallyWorld.after D ups reg ops).get reg p name (limit + 2) = .error .keyError := by
  have hc := tallyAlias_after (ups := ups) (reg := reg) hD hops
  have hnone : ((TallyWorld.after D ups reg ops).caches p).get? name = none := by
    rcases h : ((TallyWorld.after D ups reg ops).caches p).get? name with _ | d
    · rfl
    · obtain ⟨v', u', hv', hu', hk⟩ := hc p name d h
      rw [hv] at hv'; cases hv'
      rw [hu] at hu'; cases hu'
      exact absurd (hk hp) halias
  obtain ⟨r, hr⟩ := Option.ne_none_iff_exists'.1 hp
  have hnone' : ((TallyWorld.after D ups reg ops).caches r).get? u.aliasName = none := by
    rcases h : ((TallyWorld.after D ups reg ops).caches r).get? u.aliasName with _ | d
    · rfl
    · obtain ⟨_, u', _, hu', _⟩ := hc r u.aliasName d h
      exact absurd (Dict.mem_keys_iff.2 ⟨u', hu'⟩) halias
  have halias' : reg.get? u.aliasName = none := by
    rcases h : reg.get? u.aliasName with _ | u'
    · rfl
    · exact absurd (Dict.mem_keys_iff.2 ⟨u', h⟩) halias
  unfold TallyWorld.get
  generalize (TallyWorld.after D ups reg ops).frame = F at *
  generalize (TallyWorld.after D ups reg ops).caches = c at *
  have hrec : tallyGet F reg (limit + 1) u.aliasName r c = (.error .keyError, c) := by
    unfold tallyGet
    rw [show ∀ (f : TallyCaches P → M (TallyCaches P) (Dict P Num)), (M.read >>= f) c = f c c from fun _ => rfl]
    simp only [hnone', halias']
    rfl
  unfold tallyGet
  rw [show ∀ (f : TallyCaches P → M (TallyCaches P) (Dict P Num)), (M.read >>= f) c = f c c from fun _ => rfl]
  simp only [hnone, hu, hv, hr]
  rw [M.bind_error hrec]

end histories

/-- **C108 (the alias).**  A tally of one column is registered under an alias of its own: the one given, or the column. -/
theorem C108_alias (col : String) (aliasName : Option String) :
    tallyMake (.inl col) aliasName = .ok ⟨[col], if aliasName.getD "" = "" then col else aliasName.getD ""⟩ := by
  unfold tallyMake
  rcases aliasName with _ | a
  · simp [tallyMake.firstField]
  · simp only [Option.getD_some]
    split <;> simp_all [tallyMake.firstField]

/-- **C108 (the alias of a tally of several columns).**  It is the one given, or the first column; without columns there has to be one. -/
theorem C108_list_alias (cols : List String) (aliasName : Option String) (u : TallyUpd) :
    tallyMake (.inr cols) aliasName = .ok u ↔
      u.fields = cols ∧ (if aliasName.getD "" = "" then cols.head? = some u.aliasName else aliasName = some u.aliasName) := by
  obtain ⟨f, n⟩ := u
  have hf : tallyMake.firstField cols = .ok ⟨f, n⟩ ↔ f = cols ∧ cols.head? = some n := by
    cases cols with
    | nil => simp [tallyMake.firstField]
    | cons c cs =>
      simp only [tallyMake.firstField, Except.ok.injEq, TallyUpd.mk.injEq, List.head?_cons, Option.some.injEq]
      exact ⟨fun h => ⟨h.1.symm, h.2⟩, fun h => ⟨h.1.symm, h.2⟩⟩
  unfold tallyMake
  rcases aliasName with _ | a
  · simpa using hf
  · by_cases ha : a = ""
    · simpa [ha] using hf
    · simp only [if_neg ha, Option.getD_some, Except.ok.injEq, TallyUpd.mk.injEq, Option.some.injEq]
      exact ⟨fun h => ⟨h.1.symm, h.2⟩, fun h => ⟨h.1.symm, h.2⟩⟩

/-! ## Examples -/

/-- two columns without and with an alias, and no columns -/
example : tallyMake (.inr ["VAP", "NVAP"]) none = .ok ⟨["VAP", "NVAP"], "VAP"⟩ ∧ tallyMake (.inr ["VAP", "NVAP"]) (some "pop") = .ok ⟨["VAP", "NVAP"], "pop"⟩ ∧
    tallyMake (.inr []) none = .error .indexError :=
  ⟨rfl, rfl, rfl⟩

/-- three nodes in a row with 1, 10, 100 people, of which 0, 4, 7 are of voting age -/
def censusCol (f : String) (v : ℕ) : ℚ :=
  if f = "TOTPOP" then (if v = 0 then 1 else if v = 1 then 10 else 100) else (if v = 0 then 0 else if v = 1 then 4 else 7)

/-- the graph with these columns -/
def censusPath : GraphData ℕ := { exData with graph := ⟨{0, 1, 2}, {(0, 1), (1, 2)}⟩, col := fun f v => ((censusCol f v : ℚ) : Num) }

/-- both tallies under their aliases -/
def goodNames : Registry := ⟨[("population", ⟨["TOTPOP"], "population"⟩), ("VAP", ⟨["VAP"], "VAP"⟩)]⟩

/-- the population has the other tally's alias -/
def badNames : Registry := ⟨[("population", ⟨["TOTPOP"], "VAP"⟩), ("VAP", ⟨["VAP"], "VAP"⟩)]⟩

/-- `{"population": Tally("TOTPOP")}`, with the alias forgotten -/
def noNames : Registry := ⟨[("population", ⟨["TOTPOP"], "TOTPOP"⟩)]⟩

theorem censusPath_wf : censusPath.graph.WF := by constructor <;> decide

theorem censusPath_numeric : Numeric censusPath censusCol := fun _ _ => rfl

/-- districts {0, 1} and {2}, and a child in which 1 has moved -/
def censusOps : List (TallyOp ℕ ℕ) := [.create ⟨[(0, 1), (1, 1), (2, 2)]⟩, .flip 0 ⟨[(1, 2)]⟩]

/-- two tallies under two names: all look-ups of all histories are right -/
example : FitNames censusPath.graph.nodes censusCol goodNames := by
  refine C108_own_names (fun name u h => ?_)
  rw [← Dict.mem_entries_iff (by unfold Dict.WF; decide)] at h
  simp only [goodNames, List.mem_cons, Prod.mk.injEq, List.not_mem_nil, or_false] at h
  rcases h with ⟨rfl, rfl⟩ | ⟨rfl, rfl⟩ <;> rfl

/-- a synonym, registered under another name than its alias, is fine as well -/
example : FitNames censusPath.graph.nodes censusCol ⟨[("population", ⟨["TOTPOP"], "population"⟩), ("people", ⟨["TOTPOP"], "population"⟩)]⟩ := by
  intro name u h
  rw [← Dict.mem_entries_iff (by unfold Dict.WF; decide)] at h
  simp only [List.mem_cons, Prod.mk.injEq, List.not_mem_nil, or_false] at h
  rcases h with ⟨rfl, rfl⟩ | ⟨rfl, rfl⟩ <;> exact ⟨_, rfl, fun _ _ => rfl⟩

/-- the wrong alias does not fit -/
example : ¬ FitNames censusPath.graph.nodes censusCol badNames := by
  intro h
  obtain ⟨u', h1, h2⟩ := h "population" ⟨["TOTPOP"], "VAP"⟩ (by decide)
  cases (show some ⟨["VAP"], "VAP"⟩ = some u' from h1)
  have := h2 0 (by decide)
  simp [TallyUpd.val, censusCol] at this

/-- ... and the child's populations come out as 4 - 10 and 7 + 10 -/
example : (TallyWorld.after censusPath [] badNames censusOps).get badNames 1 "population" 9 = .ok ⟨[(1, ((-6 : ℚ) : Num)), (2, ((17 : ℚ) : Num))]⟩ := by
  decide +kernel

example : (TallyWorld.after censusPath [] goodNames censusOps).get goodNames 1 "population" 9 = .ok ⟨[(1, ((1 : ℚ) : Num)), (2, ((110 : ℚ) : Num))]⟩ := by
  decide +kernel

/-- without the alias the first plan has a population and its children have none -/
example : tallyMake (.inl "TOTPOP") none = .ok ⟨["TOTPOP"], "TOTPOP"⟩ ∧
    (TallyWorld.after censusPath [] noNames censusOps).get noNames 0 "population" 9 = .ok ⟨[(1, ((11 : ℚ) : Num)), (2, ((100 : ℚ) : Num))]⟩ ∧
    (TallyWorld.after censusPath [] noNames censusOps).get noNames 1 "population" 9 = .error .keyError := by
  refine ⟨rfl, by decide +kernel, by decide +kernel⟩

end GC

import Verif.Props.Flips

/-!
# The metagraph (C46)

`all_valid_states_one_flip_away`, `all_valid_flips` and `metagraph_degree`.
-/

set_option linter.unusedSectionVars false
set_option autoImplicit false

namespace GC

variable {V P X : Type} [LinearOrder V] [LinearOrder P]

/-- On children of `st` the verdict of `valid`, when it gives one, is `pred` of the assignment (as for every constraint that looks
only at updaters and at the parent). -/
def Judges (valid : ℕ → M (World V P X) Bool) (st : ℕ) (s0 : World V P X) (pred : Assignment V P → Bool) : Prop :=
  ∀ (s s1 : World V P X) (r : ℕ) (w : View V P) (b : Bool), HeapInv s.1 → Stable s0.1.frame s.1.frame →
    s.1.frame.view r = some w → w.parent = some st → valid r s = (.ok b, s1) → b = pred w.assignment

/-- a single flip: the new object, and nothing else changes -/
theorem flip_child {F F' : Frame V P} (hF : FrameInv F) {st : ℕ} {f : V × P} (h : F.flip st ⟨[f]⟩ = .ok F') :
    FrameInv F' ∧ Stable F F' ∧ (∀ r w, F.view r = some w → F'.view r = some w) ∧ F'.objs.length = F.objs.length + 1 ∧
    ∃ v b w, F.view st = some v ∧ v.assignment.flip ⟨[f]⟩ = .ok b ∧ F'.view F.objs.length = some w ∧ w.assignment = b ∧
      w.parent = some st ∧ w.flips = some ⟨[f]⟩ := by
  obtain ⟨h1, h2, v, b, hv, hb, -⟩ := hF.flip (one_wf f.1 f.2) h
  obtain ⟨flows, ef, g1, -⟩ := (flip_frame hF (one_wf f.1 f.2) hv).2 b hb
  have : F' = F.push b (some st) (some ⟨[f]⟩) (some flows) ef := by
    have := h.symm.trans g1
    cases this; rfl
  subst this
  exact ⟨h1, h2, fun r w hw => view_push_old hw, by simp [Frame.push], v, b, _, hv, hb, view_push_new, rfl, rfl, rfl⟩

/-- what the loop over the flips does -/
theorem validLoop_ok {valid : ℕ → M (World V P X) Bool} (hl : ∀ r, LookupsOnly (valid r)) {st : ℕ} {s0 : World V P X}
    {pred : Assignment V P → Bool} (hj : Judges valid st s0 pred) {v : View V P} (fs : List (V × P)) :
    ∀ (s s1 : World V P X) (ys : List ℕ), HeapInv s.1 → Stable s0.1.frame s.1.frame → s.1.frame.view st = some v →
      validLoop valid st fs s = (.ok ys, s1) →
      HeapInv s1.1 ∧ Stable s.1.frame s1.1.frame ∧ (∀ r w, s.1.frame.view r = some w → s1.1.frame.view r = some w) ∧
      ∃ kids : List ((V × P) × ℕ × Assignment V P), kids.map Prod.fst = fs ∧
        (∀ k ∈ kids, s.1.frame.objs.length ≤ k.2.1 ∧ v.assignment.flip ⟨[k.1]⟩ = .ok k.2.2 ∧
          ∃ w, s1.1.frame.view k.2.1 = some w ∧ w.assignment = k.2.2 ∧ w.parent = some st ∧ w.flips = some ⟨[k.1]⟩) ∧
        (kids.map (fun k => k.2.1)).Pairwise (· < ·) ∧
        ys = (kids.filter (fun k => pred k.2.2)).map (fun k => k.2.1) := by
  induction fs with
  | nil =>
    intro s s1 ys hs h0 hv h
    cases h
    exact ⟨hs, Stable.refl _, fun _ _ h => h, [], rfl, by simp, by simp, rfl⟩
  | cons f fs ih =>
    intro s s1 ys hs h0 hv h
    unfold validLoop at h
    obtain ⟨q, w1, h1, g1⟩ := M.bind_eq_ok h
    obtain ⟨b, w2, h2, g2⟩ := M.bind_eq_ok g1
    obtain ⟨rest, w3, h3, g3⟩ := M.bind_eq_ok g2
    obtain ⟨F, k1, k2, k3⟩ : ∃ F, s.1.frame.flip st ⟨[f]⟩ = .ok F ∧ q = s.1.frame.objs.length ∧ w1.1 = ⟨F, s.1.caches⟩ := by
      rcases flipObj_eq h1 with ⟨F, k1, k2, k3⟩ | ⟨e, k1, -⟩
      · cases k2; exact ⟨F, k1, rfl, k3⟩
      · cases k1
    obtain ⟨f1, f2, f3, f4, v', b', w, hv', hb', hw, hwb, hwp, hwf⟩ := flip_child hs.frame k1
    rw [hv] at hv'; cases hv'
    have hs1 : HeapInv w1.1 := by rw [k3]; exact ⟨f1, hs.caches.stable f2⟩
    have e1 : w1.1.frame = F := by rw [k3]
    obtain ⟨ops, ho, he⟩ := hl q w1
    rw [h2] at he
    have e2 : w2.1.frame = F := by
      rw [← e1]; show w2.1.frame = _; rw [he]; exact run_lookups_frame ho
    have hs2 : HeapInv w2.1 := by
      show HeapInv w2.1
      have := (hs1.run (lookups_wf ho)).1
      rw [← he] at this
      exact this
    have hb : b = pred w.assignment := hj w1 w2 q w b hs1 (by rw [e1]; exact h0.trans f2) (by rw [e1, k2]; exact hw) hwp h2
    obtain ⟨i1, i2, i3, kids, j1, j2, j3, j4⟩ := ih w2 w3 rest hs2 (by rw [e2]; exact h0.trans f2) (by rw [e2]; exact f3 _ _ hv) h3
    rw [e2] at i2 i3 j2
    have hys : ys = if b then q :: rest else rest := by cases g3; rfl
    have hs3 : w3 = s1 := by cases g3; rfl
    subst hs3
    refine ⟨i1, f2.trans i2, fun r w h => i3 r w (f3 r w h), (f, q, b') :: kids, by simp [j1], ?_, ?_, ?_⟩
    · intro k hk
      rcases List.mem_cons.1 hk with rfl | hk
      · exact ⟨k2 ▸ le_rfl, hb', w, i3 _ _ (k2 ▸ hw), hwb, hwp, hwf⟩
      · obtain ⟨a1, a2, a3⟩ := j2 k hk
        exact ⟨by omega, a2, a3⟩
    · rw [List.map_cons, List.pairwise_cons]
      refine ⟨fun r hr => ?_, j3⟩
      obtain ⟨k, hk, rfl⟩ := List.mem_map.1 hr
      have := (j2 k hk).1
      simp only
      omega
    · rw [hys, hb, hwb, j4, List.filter_cons]
      by_cases hp : pred b' = true
      · simp [hp]
      · simp [hp]

/-- `all_cut_edge_flips` gives both ends of every cut edge, each with the label of the other end -/
theorem allCutEdgeFlips_ok {G : Graph V} (hG : G.WF) {a : Assignment V P} (hcov : a.Covers G.nodes) :
    ∃ l, allCutEdgeFlips a (cutsOf G a.mapping) = .ok l ∧
      l.map (fun f => (f.1, some f.2)) =
        (iterE (cutsOf G a.mapping)).flatMap (fun e => [(e.1, a.mapping.get? e.2), (e.2, a.mapping.get? e.1)]) := by
  unfold allCutEdgeFlips
  have hall : ∀ e ∈ iterE (cutsOf G a.mapping), G.Adj e.1 e.2 := fun e he => (mem_cutsOf.1 (mem_iterE.1 he)).1.2
  generalize iterE (cutsOf G a.mapping) = L at hall
  induction L with
  | nil => exact ⟨[], rfl, rfl⟩
  | cons e L ih =>
    obtain ⟨l, h1, h2⟩ := ih (fun e he => hall e (List.mem_cons_of_mem _ he))
    have hadj := hall e List.mem_cons_self
    obtain ⟨p, hp⟩ := covers_adj hG hcov _ _ hadj
    obtain ⟨q, hq⟩ := covers_adj hG hcov _ _ hadj.symm
    refine ⟨(e.1, q) :: (e.2, p) :: l, ?_, ?_⟩
    · rw [List.foldr_cons, h1, Dict.get_eq_ok_iff.2 hp, Dict.get_eq_ok_iff.2 hq]; rfl
    · simp [h2, hp, hq]

theorem mem_allCutEdgeFlips {G : Graph V} (hG : G.WF) {a : Assignment V P} (hcov : a.Covers G.nodes) {l : List (V × P)}
    (h : l.map (fun f => (f.1, some f.2)) =
        (iterE (cutsOf G a.mapping)).flatMap (fun e => [(e.1, a.mapping.get? e.2), (e.2, a.mapping.get? e.1)])) (n : V) (q : P) :
    (n, q) ∈ l ↔ CanMove G a.mapping n q := by
  have hm : (n, q) ∈ l ↔ (n, some q) ∈ l.map (fun f => (f.1, some f.2)) := by
    rw [List.mem_map]
    constructor
    · intro h; exact ⟨_, h, rfl⟩
    · rintro ⟨⟨x, y⟩, hx, he⟩
      simp only [Prod.mk.injEq, Option.some.injEq] at he
      obtain ⟨rfl, rfl⟩ := he
      exact hx
  rw [hm, h, List.mem_flatMap]
  constructor
  · rintro ⟨e, he, hx⟩
    have he' := mem_iterE.1 he
    simp only [List.mem_cons, Prod.mk.injEq, List.not_mem_nil, or_false] at hx
    rcases hx with ⟨rfl, hq⟩ | ⟨rfl, hq⟩
    · exact canMove_of_cut (x := e) he' (.inl rfl) (covers_adj hG hcov) hq.symm
    · exact canMove_of_cut (x := (e.2, e.1)) he' (.inr rfl) (covers_adj hG hcov) hq.symm
  · intro hc
    obtain ⟨e, he, x, hx, rfl, hq⟩ := cut_of_canMove hc
    refine ⟨e, mem_iterE.2 he, ?_⟩
    rcases hx with rfl | rfl
    · simp [hq]
    · simp [hq]

/-- a possible move never raises -/
theorem flip_of_canMove {G : Graph V} {a : Assignment V P} (ha : a.Coherent) {n : V} {q : P} (h : CanMove G a.mapping n q) :
    ∃ b, a.flip ⟨[(n, q)]⟩ = .ok b ∧ MovedTo a b n q := by
  obtain ⟨⟨p, hp, -⟩, u, -, hu⟩ := h
  rcases hf : a.flip ⟨[(n, q)]⟩ with e | b
  · exfalso
    obtain ⟨-, ⟨x, hx, hx'⟩ | ⟨r, hr, hr'⟩⟩ := (C03_flip_raises_iff a ha _ (one_wf n q) e).1 hf
    · simp only [Dict.keys, List.map_cons, List.map_nil, List.mem_singleton] at hx
      subst hx
      exact hx' (Dict.mem_keys_iff.2 ⟨p, hp⟩)
    · simp only [Dict.values, List.map_cons, List.map_nil, List.mem_singleton] at hr
      subst hr
      exact hr' (ha.complete _ _ hu)
  · exact ⟨b, rfl, movedTo_of_flip ha hf⟩

/-- the plan with `n` moved to district `o` exists and is accepted -/
def accepts (a : Assignment V P) (pred : Assignment V P → Bool) (n : V) (o : Option P) : Bool :=
  match o with
  | none => false
  | some q => match a.flip ⟨[(n, q)]⟩ with
    | .ok b => pred b
    | .error _ => false

/-- what `all_valid_states_one_flip_away` does when it runs to its end -/
theorem allValidStates_ok {valid : ℕ → M (World V P X) Bool} (hl : ∀ r, LookupsOnly (valid r)) {limit st : ℕ} {s s1 : World V P X}
    {pred : Assignment V P → Bool} (hj : Judges valid st s pred) (hs : HeapInv s.1) {v : View V P}
    (hv : s.1.frame.view st = some v) {ys : List ℕ} (h : allValidStates valid limit st s = (.ok ys, s1)) :
    ∃ kids : List ((V × P) × ℕ × Assignment V P),
      allCutEdgeFlips v.assignment (cutsOf s.1.frame.data.graph v.assignment.mapping) = .ok (kids.map Prod.fst) ∧
      (∀ k ∈ kids, s.1.frame.objs.length ≤ k.2.1 ∧ v.assignment.flip ⟨[k.1]⟩ = .ok k.2.2 ∧
        ∃ w, s1.1.frame.view k.2.1 = some w ∧ w.assignment = k.2.2 ∧ w.parent = some st ∧ w.flips = some ⟨[k.1]⟩) ∧
      (kids.map (fun k => k.2.1)).Pairwise (· < ·) ∧ ys = (kids.filter (fun k => pred k.2.2)).map (fun k => k.2.1) := by
  unfold allValidStates at h
  obtain ⟨v', w1, h1, g1⟩ := M.bind_eq_ok h
  obtain ⟨x, w2, h2, g2⟩ := M.bind_eq_ok g1
  obtain ⟨cuts, w3, h3, g3⟩ := M.bind_eq_ok g2
  obtain ⟨fl, w4, h4, g4⟩ := M.bind_eq_ok g3
  obtain ⟨hw1, hv'⟩ := viewObj_eq h1
  have := (hv' v').1 rfl
  rw [hv] at this
  cases this
  rw [hw1] at h2
  obtain ⟨h3', rfl⟩ := M.lift_eq_ok h3
  obtain ⟨h4', rfl⟩ := M.lift_eq_ok h4
  have e1 := (Prod.mk.inj h2).1
  have e2 := (Prod.mk.inj h2).2
  have e3 : w2.1 = s.1.step (.lookup st .cutEdges limit) := by rw [← e2]
  have hcor := getitem_sat hs.frame limit .cutEdges st _ hs.caches
  rw [show getitem s.1.frame limit .cutEdges st s.1.caches = (.ok x, w2.1.caches) from Prod.ext e1 (by rw [e3]; rfl)] at hcor
  obtain ⟨-, v2, hv2, hcc⟩ := hcor
  rw [hv] at hv2
  cases hv2
  rw [asEdgeSet_correct hcc h3'] at h4'
  have hs2 : HeapInv w2.1 := by rw [e3]; exact (hs.step (op := .lookup st .cutEdges limit) trivial).1
  have hf2 : w2.1.frame = s.1.frame := by rw [e3]; rfl
  obtain ⟨-, -, -, kids, k1, k2, k3, k4⟩ := validLoop_ok hl hj fl w2 s1 ys hs2 (by rw [hf2]; exact Stable.refl _) (by rw [hf2]; exact hv) g4
  rw [hf2] at k2
  exact ⟨kids, by rw [k1]; exact h4', k2, k3, k4⟩

/-- **C46** When `all_valid_states_one_flip_away` runs to its end, the yielded states are exactly the plans obtained by moving a
node to a different district containing one of its neighbours that the constraints accept: every yielded state is such a plan
(a new object with the partition as parent), and every accepted plan of this form is yielded.  For every partition after any
history and all constraints that only look at the partition. -/
theorem C46_exact (valid : ℕ → M (World V P X) Bool) (hl : ∀ r, LookupsOnly (valid r)) (limit st : ℕ) (s s1 : World V P X)
    (pred : Assignment V P → Bool) (hj : Judges valid st s pred) (hs : HeapInv s.1) (v : View V P)
    (hv : s.1.frame.view st = some v) (ys : List ℕ) (h : allValidStates valid limit st s = (.ok ys, s1)) :
    (∀ y ∈ ys, s.1.frame.objs.length ≤ y ∧ ∃ w, s1.1.frame.view y = some w ∧ w.parent = some st ∧
      BoundaryMove s.1.frame.data.graph v.assignment w.assignment ∧ pred w.assignment = true) ∧
    (∀ n q, CanMove s.1.frame.data.graph v.assignment.mapping n q → ∃ b, v.assignment.flip ⟨[(n, q)]⟩ = .ok b ∧
      MovedTo v.assignment b n q ∧
      (pred b = true → ∃ y ∈ ys, ∃ w, s1.1.frame.view y = some w ∧ w.parent = some st ∧ w.assignment = b)) ∧
    ys.Nodup := by
  obtain ⟨kids, k1, k2, k3, k4⟩ := allValidStates_ok hl hj hs hv h
  have hG := hs.frame.graph
  have hcov := hs.frame.covers _ _ hv
  have hco := hs.frame.coherent _ _ hv
  obtain ⟨l, l1, l2⟩ := allCutEdgeFlips_ok hG hcov
  rw [k1] at l1
  cases l1
  have hmem := mem_allCutEdgeFlips hG hcov l2
  refine ⟨?_, ?_, ?_⟩
  · intro y hy
    rw [k4, List.mem_map] at hy
    obtain ⟨k, hk, rfl⟩ := hy
    obtain ⟨hk, hp⟩ := List.mem_filter.1 hk
    obtain ⟨a1, a2, w, a3, a4, a5, -⟩ := k2 k hk
    refine ⟨a1, w, a3, a5, ⟨k.1.1, k.1.2, (hmem _ _).1 (List.mem_map.2 ⟨k, hk, rfl⟩), ?_⟩, by rw [a4]; exact hp⟩
    rw [a4]
    exact movedTo_of_flip hco a2
  · intro n q hc
    obtain ⟨b, hb, hm⟩ := flip_of_canMove hco hc
    refine ⟨b, hb, hm, fun hp => ?_⟩
    obtain ⟨k, hk, he⟩ := List.mem_map.1 ((hmem n q).2 hc)
    obtain ⟨-, a2, w, a3, a4, a5, -⟩ := k2 k hk
    rw [he, hb] at a2
    cases a2
    refine ⟨k.2.1, ?_, w, a3, a5, a4⟩
    rw [k4]
    exact List.mem_map.2 ⟨k, List.mem_filter.2 ⟨hk, by simpa using hp⟩, rfl⟩
  · rw [k4]
    exact (List.Sublist.map _ List.filter_sublist).nodup (k3.imp (fun h => ne_of_lt h))

/-- `all_valid_flips` yields the flips of these states: exactly the accepted moves, each as a dictionary with one entry. -/
theorem C46_flips (valid : ℕ → M (World V P X) Bool) (hl : ∀ r, LookupsOnly (valid r)) (limit st : ℕ) (s s1 : World V P X)
    (pred : Assignment V P → Bool) (hj : Judges valid st s pred) (hs : HeapInv s.1) (v : View V P)
    (hv : s.1.frame.view st = some v) (fs : List (Option (Dict V P))) (h : allValidFlips valid limit st s = (.ok fs, s1))
    (f : Option (Dict V P)) :
    f ∈ fs ↔ ∃ n q b, f = some ⟨[(n, q)]⟩ ∧ CanMove s.1.frame.data.graph v.assignment.mapping n q ∧
      v.assignment.flip ⟨[(n, q)]⟩ = .ok b ∧ pred b = true := by
  unfold allValidFlips at h
  obtain ⟨ys, w1, h1, g1⟩ := M.bind_eq_ok h
  obtain ⟨w, w2, h2, g2⟩ := M.bind_eq_ok g1
  cases h2
  cases g2
  obtain ⟨kids, k1, k2, k3, k4⟩ := allValidStates_ok hl hj hs hv h1
  have hG := hs.frame.graph
  have hcov := hs.frame.covers _ _ hv
  obtain ⟨l, l1, l2⟩ := allCutEdgeFlips_ok hG hcov
  rw [k1] at l1
  cases l1
  have hmem := mem_allCutEdgeFlips hG hcov l2
  rw [k4, List.map_map, List.mem_map]
  constructor
  · rintro ⟨k, hk, rfl⟩
    obtain ⟨hk, hp⟩ := List.mem_filter.1 hk
    obtain ⟨-, a2, w, a3, -, -, a6⟩ := k2 k hk
    refine ⟨k.1.1, k.1.2, k.2.2, ?_, (hmem _ _).1 (List.mem_map.2 ⟨k, hk, rfl⟩), a2, hp⟩
    simp only [Function.comp, a3, Option.bind_some, a6]
  · rintro ⟨n, q, b, rfl, hc, hb, hp⟩
    obtain ⟨k, hk, he⟩ := List.mem_map.1 ((hmem n q).2 hc)
    obtain ⟨-, a2, w, a3, -, -, a6⟩ := k2 k hk
    rw [he, hb] at a2
    cases a2
    refine ⟨k, List.mem_filter.2 ⟨hk, by simpa using hp⟩, ?_⟩
    simp only [Function.comp, a3, Option.bind_some, a6, he]

/-- `metagraph_degree` counts, for every cut edge, the ends whose move to the other end's district is accepted. -/
theorem C46_degree (valid : ℕ → M (World V P X) Bool) (hl : ∀ r, LookupsOnly (valid r)) (limit st : ℕ) (s s1 : World V P X)
    (pred : Assignment V P → Bool) (hj : Judges valid st s pred) (hs : HeapInv s.1) (v : View V P)
    (hv : s.1.frame.view st = some v) (d : ℕ) (h : metagraphDegree valid limit st s = (.ok d, s1)) :
    d = ∑ e ∈ cutsOf s.1.frame.data.graph v.assignment.mapping,
      ((accepts v.assignment pred e.1 (v.assignment.mapping.get? e.2)).toNat +
        (accepts v.assignment pred e.2 (v.assignment.mapping.get? e.1)).toNat) := by
  unfold metagraphDegree at h
  obtain ⟨ys, w1, h1, g1⟩ := M.bind_eq_ok h
  cases g1
  obtain ⟨kids, k1, k2, k3, k4⟩ := allValidStates_ok hl hj hs hv h1
  obtain ⟨l, l1, l2⟩ := allCutEdgeFlips_ok hs.frame.graph (hs.frame.covers _ _ hv)
  rw [k1] at l1
  cases l1
  have e1 : ys.length = (kids.map (fun k => (k.1.1, some k.1.2))).countP (fun x => accepts v.assignment pred x.1 x.2) := by
    rw [k4, List.length_map, ← List.countP_eq_length_filter, List.countP_map]
    apply List.countP_congr
    intro k hk
    simp only [Function.comp, accepts, show (⟨[(k.1.1, k.1.2)]⟩ : Dict V P) = ⟨[k.1]⟩ from rfl, (k2 k hk).2.1]
  rw [List.map_map] at l2
  rw [e1, show (fun k : (V × P) × ℕ × Assignment V P => (k.1.1, some k.1.2)) = ((fun f : V × P => (f.1, some f.2)) ∘ Prod.fst) from rfl, l2,
    List.countP_flatMap]
  have e2 : ∀ f : V × V → ℕ, ((iterE (cutsOf s.1.frame.data.graph v.assignment.mapping)).map f).sum =
      ∑ e ∈ cutsOf s.1.frame.data.graph v.assignment.mapping, f e := by
    intro f
    rw [← List.sum_toFinset _ (nodup_iterE _)]
    congr 1
    ext e
    rw [List.mem_toFinset, mem_iterE]
  rw [e2]
  apply Finset.sum_congr rfl
  intro e _
  simp only [Function.comp, List.countP_cons, List.countP_nil]
  cases accepts v.assignment pred e.1 (v.assignment.mapping.get? e.2) <;>
    cases accepts v.assignment pred e.2 (v.assignment.mapping.get? e.1) <;> rfl

/-- different moves give different plans -/
theorem C46_moves_distinct {G : Graph V} {a b : Assignment V P} {n n' : V} {q q' : P} (h : CanMove G a.mapping n q)
    (h1 : MovedTo a b n q) (h2 : MovedTo a b n' q') : n = n' ∧ q = q' := by
  obtain ⟨⟨p, hp, hne⟩, -⟩ := h
  have e1 := h1 n
  rw [if_pos rfl, h2 n] at e1
  by_cases hn : n = n'
  · rw [if_pos hn] at e1
    exact ⟨hn, by simpa using e1.symm⟩
  · rw [if_neg hn, hp] at e1
    exact absurd (by simpa using e1) hne

/-- **C46** (partial) `metagraph_degree` is at least the number of accepted moves, that is of distinct neighbouring states, and
equal to it when no node has two neighbours in the same other district.  Missing: the general case, where it counts some states
several times, see `C46_degree_violation`. -/
theorem C46_degree_partial (valid : ℕ → M (World V P X) Bool) (hl : ∀ r, LookupsOnly (valid r)) (limit st : ℕ) (s s1 : World V P X)
    (pred : Assignment V P → Bool) (hj : Judges valid st s pred) (hs : HeapInv s.1) (v : View V P)
    (hv : s.1.frame.view st = some v) (d : ℕ) (h : metagraphDegree valid limit st s = (.ok d, s1)) :
    ∃ S : Finset (V × P), (∀ n q, (n, q) ∈ S ↔ CanMove s.1.frame.data.graph v.assignment.mapping n q ∧
        ∃ b, v.assignment.flip ⟨[(n, q)]⟩ = .ok b ∧ pred b = true) ∧ S.card ≤ d ∧
      ((∀ n u u', s.1.frame.data.graph.Adj n u → s.1.frame.data.graph.Adj n u' →
          v.assignment.mapping.get? u = v.assignment.mapping.get? u' → v.assignment.mapping.get? u ≠ v.assignment.mapping.get? n →
          u = u') → S.card = d) := by
  unfold metagraphDegree at h
  obtain ⟨ys, w1, h1, g1⟩ := M.bind_eq_ok h
  cases g1
  obtain ⟨kids, k1, k2, k3, k4⟩ := allValidStates_ok hl hj hs hv h1
  have hG := hs.frame.graph
  have hcov := hs.frame.covers _ _ hv
  obtain ⟨l, l1, l2⟩ := allCutEdgeFlips_ok hG hcov
  rw [k1] at l1
  cases l1
  have hmem := mem_allCutEdgeFlips hG hcov l2
  have hlen : ys.length = ((kids.filter (fun k => pred k.2.2)).map Prod.fst).length := by
    rw [k4, List.length_map, List.length_map]
  refine ⟨((kids.filter (fun k => pred k.2.2)).map Prod.fst).toFinset, ?_, ?_, ?_⟩
  · intro n q
    rw [List.mem_toFinset, List.mem_map]
    constructor
    · rintro ⟨k, hk, he⟩
      obtain ⟨hk, hp⟩ := List.mem_filter.1 hk
      refine ⟨(hmem n q).1 (List.mem_map.2 ⟨k, hk, he⟩), k.2.2, ?_, hp⟩
      rw [← he]
      exact (k2 k hk).2.1
    · rintro ⟨hc, b, hb, hp⟩
      obtain ⟨k, hk, he⟩ := List.mem_map.1 ((hmem n q).2 hc)
      have a2 := (k2 k hk).2.1
      rw [he, hb] at a2
      cases a2
      exact ⟨k, List.mem_filter.2 ⟨hk, by simpa using hp⟩, he⟩
  · rw [hlen]
    exact List.toFinset_card_le _
  · intro hone
    rw [hlen]
    apply List.toFinset_card_of_nodup
    refine (List.Sublist.map _ List.filter_sublist).nodup (l₂ := kids.map Prod.fst) ?_
    apply List.Nodup.of_map (fun f : V × P => (f.1, some f.2))
    rw [l2, List.nodup_flatMap]
    have hcut : ∀ e ∈ iterE (cutsOf s.1.frame.data.graph v.assignment.mapping),
        IsSortedEdge s.1.frame.data.graph e ∧ v.assignment.mapping.get? e.1 ≠ v.assignment.mapping.get? e.2 :=
      fun e he => mem_cutsOf.1 (mem_iterE.1 he)
    constructor
    · intro e he
      have := (hcut e he).2
      simp only [List.nodup_cons, List.mem_singleton, List.not_mem_nil, not_false_eq_true, List.nodup_nil, and_true, Prod.mk.injEq]
      rintro ⟨h1, -⟩
      exact this (by rw [h1])
    · refine List.Pairwise.imp_of_mem ?_ (nodup_iterE _)
      intro e e' he he' hne
      obtain ⟨⟨l1, a1⟩, c1⟩ := hcut e he
      obtain ⟨⟨l1', a1'⟩, c1'⟩ := hcut e' he'
      intro x hx hx'
      simp only [List.mem_cons, List.not_mem_nil, or_false] at hx hx'
      rcases hx with rfl | rfl <;> rcases hx' with hx' | hx' <;> rw [Prod.mk.injEq] at hx' <;> obtain ⟨h1, h2⟩ := hx'
      · exact hne (Prod.ext h1 (hone e.1 e.2 e'.2 a1 (h1 ▸ a1') h2 (fun h => c1 h.symm)))
      · have := hone e.1 e.2 e'.1 a1 (h1 ▸ a1'.symm) h2 (fun h => c1 h.symm)
        rw [h1, this] at l1
        exact c1' (by rw [le_antisymm l1' l1])
      · have := hone e.2 e.1 e'.2 a1.symm (h1 ▸ a1') h2 c1
        rw [h1, this] at l1
        exact c1' (by rw [le_antisymm l1' l1])
      · exact hne (Prod.ext (hone e.2 e.1 e'.1 a1.symm (h1 ▸ a1'.symm) h2 c1) h1)

/-! ### Totality, the violation and examples -/

/-- the loop raises only what the constraints raise -/
theorem validLoop_total {valid : ℕ → M (World V P X) Bool} (hl : ∀ r, LookupsOnly (valid r)) {st : ℕ} {v : View V P}
    (hok : ∀ r s w, HeapInv s.1 → s.1.frame.view r = some w → w.parent = some st → ∃ b s1, valid r s = (.ok b, s1)) (fs : List (V × P)) (hfs : ∀ f ∈ fs, ∃ b, v.assignment.flip ⟨[f]⟩ = .ok b) :
    ∀ s : World V P X, HeapInv s.1 → s.1.frame.view st = some v → ∃ ys s1, validLoop valid st fs s = (.ok ys, s1) := by
  induction fs with
  | nil => exact fun s _ _ => ⟨[], s, rfl⟩
  | cons f fs ih =>
    intro s hs hv
    obtain ⟨b, hb⟩ := hfs f List.mem_cons_self
    obtain ⟨flows, ef, g1, -⟩ := (flip_frame hs.frame (one_wf f.1 f.2) hv).2 b hb
    generalize hF : s.1.frame.push b (some st) (some ⟨[f]⟩) (some flows) ef = F at g1
    obtain ⟨f1, f2, f3, -, v', b', w, hv', hb', hw, -, hwp, -⟩ := flip_child hs.frame g1
    have h1 : flipObj st ⟨[f]⟩ s = (.ok s.1.frame.objs.length, (⟨F, s.1.caches⟩, s.2)) := by
      unfold flipObj
      rw [show s.1.frame.flip st ⟨[f]⟩ = _ from g1]
    obtain ⟨c, w2, h2⟩ := hok s.1.frame.objs.length (⟨F, s.1.caches⟩, s.2) w ⟨f1, hs.caches.stable f2⟩ hw hwp
    obtain ⟨ops, ho, he⟩ := hl s.1.frame.objs.length (⟨F, s.1.caches⟩, s.2)
    rw [h2] at he
    obtain ⟨ys, w3, h3⟩ := ih (fun f hf => hfs f (List.mem_cons_of_mem _ hf)) w2
      (by rw [show w2.1 = _ from he]; exact (HeapInv.run ⟨f1, hs.caches.stable f2⟩ (lookups_wf ho)).1)
      (by rw [show w2.1 = _ from he, run_lookups_frame ho]; exact f3 _ _ hv)
    refine ⟨if c then s.1.frame.objs.length :: ys else ys, w3, ?_⟩
    unfold validLoop
    refine (M.bind_ok h1).trans ?_
    refine (M.bind_ok h2).trans ?_
    exact (M.bind_ok h3).trans rfl

/-- **C46** The enumeration runs to its end whenever the constraints do not raise and `cut_edges` is registered. -/
theorem C46_total (valid : ℕ → M (World V P X) Bool) (hl : ∀ r, LookupsOnly (valid r)) (limit st : ℕ) (s : World V P X)
    (hok : ∀ r s w, HeapInv s.1 → s.1.frame.view r = some w → w.parent = some st → ∃ b s1, valid r s = (.ok b, s1)) (hs : HeapInv s.1) (v : View V P) (hv : s.1.frame.view st = some v)
    (hsafe : Safe s.1.frame limit .cutEdges st) : ∃ ys s1, allValidStates valid limit st s = (.ok ys, s1) := by
  have hG := hs.frame.graph
  have hcov := hs.frame.covers _ _ hv
  have hco := hs.frame.coherent _ _ hv
  have hcor := getitem_sat hs.frame limit .cutEdges st _ hs.caches
  rcases hg : getitem s.1.frame limit .cutEdges st s.1.caches with ⟨_ | x, c'⟩
  · rw [hg] at hcor
    exact absurd hsafe hcor.2
  rw [hg] at hcor
  obtain ⟨-, v2, hv2, hcc⟩ := hcor
  rw [hv] at hv2
  cases hv2
  obtain ⟨cuts, hx⟩ : ∃ cuts, x.asEdgeSet = .ok cuts := by
    unfold Val.asEdgeSet
    cases x <;> first | exact ⟨_, rfl⟩ | exact absurd hcc (by simp [Correct])
  obtain ⟨l, l1, l2⟩ := allCutEdgeFlips_ok hG hcov
  have h2 : lookupKey .cutEdges limit st s = (.ok x, (s.1.step (.lookup st .cutEdges limit), s.2)) := by
    unfold lookupKey
    rw [hg]
  obtain ⟨ys, s1, h3⟩ := validLoop_total hl hok l (fun f hf => by
    obtain ⟨b, hb, -⟩ := flip_of_canMove hco ((mem_allCutEdgeFlips hG hcov l2 f.1 f.2).1 hf)
    exact ⟨b, hb⟩) (s.1.step (.lookup st .cutEdges limit), s.2) (hs.step (op := .lookup st .cutEdges limit) trivial).1 hv
  refine ⟨ys, s1, ?_⟩
  unfold allValidStates
  have h1 : viewObj st s = (.ok v, s) := by unfold viewObj; rw [hv]
  refine (M.bind_ok h1).trans ?_
  refine (M.bind_ok h2).trans ?_
  rw [hx, asEdgeSet_correct hcc hx]
  refine (M.bind_ok (s := (s.1.step (.lookup st .cutEdges limit), s.2)) (s' := (s.1.step (.lookup st .cutEdges limit), s.2)) rfl).trans ?_
  rw [l1]
  exact h3

open Classical in
/-- `contiguous` is such a constraint on the children of a contiguous plan, -/
theorem judges_contiguous (ord : SetOrder P) {st : ℕ} {s : World V P X} {v : View V P} (hv : s.1.frame.view st = some v)
    (hc : ContiguousPlan s.1.frame.data.graph v.assignment) :
    Judges (fun r s => (contiguous ord s.1.frame r, s)) st s (fun b => decide (ContiguousPlan s.1.frame.data.graph b)) := by
  intro t t1 r w b ht hst hw hwp h
  obtain ⟨v', hv', he⟩ := hst.view _ _ hv
  obtain ⟨h1, -⟩ := contiguous_child ht.frame ord hw hwp hv' (by rw [hst.data, he]; exact hc)
  rw [hst.data] at h1
  have h2 : contiguous ord t.1.frame r = .ok b := (Prod.mk.inj h).1
  rw [h2] at h1
  rcases b with _ | _
  · exact (decide_eq_false (fun h => by have := h1.2 h; cases this)).symm
  · exact (decide_eq_true (h1.1 rfl)).symm

/-- and so the neighbours of a contiguous plan under `contiguous` are exactly the contiguous plans one boundary move away. -/
theorem C46_contiguous (ord : SetOrder P) (limit st : ℕ) (s s1 : World V P X) (hs : HeapInv s.1) (v : View V P)
    (hv : s.1.frame.view st = some v) (hc : ContiguousPlan s.1.frame.data.graph v.assignment) (ys : List ℕ)
    (h : allValidStates (fun r s => (contiguous ord s.1.frame r, s)) limit st s = (.ok ys, s1)) :
    (∀ y ∈ ys, ∃ w, s1.1.frame.view y = some w ∧ w.parent = some st ∧
      BoundaryMove s.1.frame.data.graph v.assignment w.assignment ∧ ContiguousPlan s.1.frame.data.graph w.assignment) ∧
    (∀ n q b, CanMove s.1.frame.data.graph v.assignment.mapping n q → v.assignment.flip ⟨[(n, q)]⟩ = .ok b →
      ContiguousPlan s.1.frame.data.graph b → ∃ y ∈ ys, ∃ w, s1.1.frame.view y = some w ∧ w.parent = some st ∧ w.assignment = b) := by
  classical
  obtain ⟨h1, h2, -⟩ := C46_exact _ (fun r s => ⟨[], by simp, rfl⟩) limit st s s1 _ (judges_contiguous ord hv hc) hs v hv ys h
  refine ⟨fun y hy => ?_, fun n q b hm hb hp => ?_⟩
  · obtain ⟨-, w, a1, a2, a3, a4⟩ := h1 y hy
    exact ⟨w, a1, a2, a3, of_decide_eq_true a4⟩
  · obtain ⟨b', hb', -, hex⟩ := h2 n q hm
    rw [hb] at hb'
    cases hb'
    exact hex (decide_eq_true hp)

/-- A triangle 0, 1, 2 and a node 3 joined to 1; districts {1, 3} and {0, 2}. -/
def exMetaWorld : World ℕ ℕ Unit :=
  (Heap.after { exData with graph := ⟨{0, 1, 2, 3}, {(0, 1), (0, 2), (1, 2), (1, 3)}⟩ } exUps
    [.create ⟨[(0, 2), (1, 1), (2, 2), (3, 1)]⟩], ())

/-- the plans of the states yielded with the constraint `contiguous` -/
def exMetaPlans : Option (List (Option (List (ℕ × ℕ)))) :=
  let r := allValidStates (fun r s => (contiguous natOrd s.1.frame r, s)) 9 0 exMetaWorld
  r.1.toOption.map (List.map (fun y => (r.2.1.frame.view y).map (fun w => w.assignment.mapping.entries)))

/-- **C46 is violated**: there are three neighbouring states, and `metagraph_degree` is four. -/
theorem C46_degree_violation :
    (metagraphDegree (fun r s => (contiguous natOrd s.1.frame r, s)) 9 0 exMetaWorld).1.toOption = some 4 ∧
    exMetaPlans = some [some [(0, 1), (2, 2), (1, 1), (3, 1)], some [(0, 2), (2, 2), (1, 2), (3, 1)],
      some [(0, 2), (2, 2), (1, 2), (3, 1)], some [(0, 2), (2, 1), (1, 1), (3, 1)]] ∧
    exMetaPlans.map (fun l => l.dedup.length) = some 3 := by
  refine ⟨by decide +kernel, by decide +kernel, by decide +kernel⟩

/-- the hypotheses of `C46_contiguous` hold in this example, and not every move is accepted in another one -/
example : ∃ (v : View ℕ ℕ) (ys : List ℕ) (s1 : World ℕ ℕ Unit), HeapInv exMetaWorld.1 ∧ exMetaWorld.1.frame.view 0 = some v ∧
    ContiguousPlan exMetaWorld.1.frame.data.graph v.assignment ∧
    allValidStates (fun r s => (contiguous natOrd s.1.frame r, s)) 9 0 exMetaWorld = (.ok ys, s1) ∧ ys ≠ [] := by
  have hD : ({ exData with graph := ⟨{0, 1, 2, 3}, {(0, 1), (0, 2), (1, 2), (1, 3)}⟩ } : GraphData ℕ).graph.WF := by
    constructor <;> decide
  have hops : ∀ op ∈ ([.create ⟨[(0, 2), (1, 1), (2, 2), (3, 1)]⟩] : List (Op ℕ ℕ)), op.WF := by
    intro op hop
    simp only [List.mem_singleton] at hop
    subst hop
    simp [Op.WF, Dict.WF, Dict.keys]
  obtain ⟨hi, hd, -⟩ := after_inv (P := ℕ) (ups := exUps) hD hops
  have hvw : (exMetaWorld.1.frame.view 0).map (fun w => w.flips) = some none := by decide +kernel
  obtain ⟨v, hv, hfl⟩ := Option.map_eq_some_iff.1 hvw
  have hcon : contiguous natOrd exMetaWorld.1.frame 0 = .ok true := by decide +kernel
  have hc := (C23_initial hD hops natOrd hv hfl).1.1 hcon
  have h4 := C46_degree_violation.2.1
  unfold exMetaPlans at h4
  rcases h : allValidStates (fun r s => (contiguous natOrd s.1.frame r, s)) 9 0 exMetaWorld with ⟨e | ys, s1⟩
  · rw [h] at h4; cases h4
  · refine ⟨v, ys, s1, hi, hv, by rw [show exMetaWorld.1.frame.data = _ from hd]; exact hc, rfl, ?_⟩
    rintro rfl
    rw [h] at h4
    cases h4

/-- in the path 0 – 1 – 2 – 3 – … of `exLine` with districts {0, 1}, {2, 3}, {4, 5} every move is counted once -/
example : (allValidFlips (fun r s => (contiguous natOrd s.1.frame r, s)) 9 0
    ((Heap.after { exData with graph := exLine } exUps [.create linePlan.mapping], ()) : World ℕ ℕ Unit)).1.toOption =
    some [some ⟨[(1, 2)]⟩, some ⟨[(2, 1)]⟩, some ⟨[(3, 3)]⟩, some ⟨[(4, 2)]⟩] := by decide +kernel

end GC

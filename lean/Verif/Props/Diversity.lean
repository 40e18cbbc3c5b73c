import Verif.Model.Diversity
import Verif.Spec.Contiguity
import Verif.Props.Updaters

/-!
# Diversity statistics (C52)
-/

set_option linter.unusedSectionVars false
set_option autoImplicit false

namespace GC

variable {V P P' X : Type} [LinearOrder V] [DecidableEq P] [DecidableEq P']

theorem iterE_injective {s t : Finset (V × V)} (h : iterE s = iterE t) : s = t := by
  ext e
  rw [← mem_iterE, h, mem_iterE]

theorem iter_injective {s t : Finset V} (h : iter s = iter t) : s = t := by
  ext e
  rw [← mem_iter, h, mem_iter]

/-- the state after having seen these plans and districts -/
structure DivInv (st : DiversityState V) (plans : Finset (Finset (V × V))) (districts : Finset (Finset V)) (n : ℕ) : Prop where
  plans_mem : ∀ c, (st.seenPlans.get? (hashableCutEdges c)).isSome ↔ c ∈ plans
  districts_mem : ∀ s, (st.seenDistricts.get? (hashableNodes s)).isSome ↔ s ∈ districts
  plans_card : st.uniquePlans = plans.card
  districts_card : st.uniqueDistricts = districts.card
  steps : st.stepsTaken = n

theorem divInv_start : DivInv (DiversityState.start : DiversityState V) ∅ ∅ 0 := by
  constructor
  · intro c; simp [DiversityState.start, Dict.get?, Dict.empty]
  · intro c; simp [DiversityState.start, Dict.get?, Dict.empty]
  · rfl
  · rfl
  · rfl

theorem DivInv.seeDistrict {st : DiversityState V} {plans : Finset (Finset (V × V))} {districts : Finset (Finset V)} {n : ℕ}
    (h : DivInv st plans districts n) (s : Finset V) : DivInv (st.seeDistrict s) plans (insert s districts) n := by
  unfold DiversityState.seeDistrict
  split
  · rename_i hs
    rw [Finset.insert_eq_of_mem ((h.districts_mem s).1 hs)]
    exact h
  · rename_i hs
    have hn : s ∉ districts := fun hm => hs ((h.districts_mem s).2 hm)
    refine ⟨h.plans_mem, fun t => ?_, h.plans_card, ?_, h.steps⟩
    · simp only [Dict.get?_set]
      by_cases ht : t = s
      · subst ht; simp
      · rw [if_neg (fun he : hashableNodes t = hashableNodes s => ht (iter_injective he)), h.districts_mem, Finset.mem_insert]
        simp [ht]
    · simp only [h.districts_card, Finset.card_insert_of_notMem hn]

theorem DivInv.seePlan {st : DiversityState V} {plans : Finset (Finset (V × V))} {districts : Finset (Finset V)} {n : ℕ}
    (h : DivInv st plans districts n) (c : Finset (V × V)) : DivInv (st.seePlan c) (insert c plans) districts n := by
  unfold DiversityState.seePlan
  split
  · rename_i hs
    rw [Finset.insert_eq_of_mem ((h.plans_mem c).1 hs)]
    exact h
  · rename_i hs
    have hn : c ∉ plans := fun hm => hs ((h.plans_mem c).2 hm)
    refine ⟨fun t => ?_, h.districts_mem, ?_, h.districts_card, h.steps⟩
    · simp only [Dict.get?_set]
      by_cases ht : t = c
      · subst ht; simp
      · rw [if_neg (fun he : hashableCutEdges t = hashableCutEdges c => ht (iterE_injective he)), h.plans_mem, Finset.mem_insert]
        simp [ht]
    · simp only [h.plans_card, Finset.card_insert_of_notMem hn]

theorem DivInv.seeDistricts {plans : Finset (Finset (V × V))} {n : ℕ} (l : List (P × Finset V)) :
    ∀ {st : DiversityState V} {districts : Finset (Finset V)}, DivInv st plans districts n →
      DivInv (l.foldl (fun st e => st.seeDistrict e.2) st) plans ((l.map (·.2)).toFinset ∪ districts) n := by
  induction l with
  | nil => intro st districts h; simpa using h
  | cons e l ih =>
    intro st districts h
    have := ih (h.seeDistrict e.2)
    rw [List.foldl_cons]
    convert this using 1
    ext t
    simp only [List.map_cons, List.toFinset_cons, Finset.mem_union, Finset.mem_insert]
    tauto

/-- One pass adds the districts and the plan. -/
theorem DivInv.pass {st : DiversityState V} {plans : Finset (Finset (V × V))} {districts : Finset (Finset V)} {n : ℕ}
    (h : DivInv st plans districts n) {x : Seen V P X} {c : Finset (V × V)} (hc : x.cutEdges = .ok c) :
    ∃ st', st.pass x = .ok (st', ⟨(insert c plans).card, (x.parts.values.toFinset ∪ districts).card, n + 1⟩) ∧
      DivInv st' (insert c plans) (x.parts.values.toFinset ∪ districts) (n + 1) := by
  have h1 : DivInv { st with stepsTaken := st.stepsTaken + 1 } plans districts (n + 1) :=
    ⟨h.plans_mem, h.districts_mem, h.plans_card, h.districts_card, by simp only [h.steps]⟩
  have h2 := (DivInv.seeDistricts x.parts.entries h1).seePlan c
  refine ⟨_, ?_, h2⟩
  unfold DiversityState.pass
  simp only [hc, bind, Except.bind, pure, Except.pure]
  rw [h2.plans_card, h2.districts_card, h2.steps]
  rfl

theorem collect_inv (fin : Option PyErr) (cuts : Seen V P X → Finset (V × V)) : ∀ (items : List (Seen V P X))
    (_ : ∀ x ∈ items, x.cutEdges = .ok (cuts x)) {st : DiversityState V} {plans : Finset (Finset (V × V))}
    {districts : Finset (Finset V)} {n : ℕ} (_ : DivInv st plans districts n),
    (collectDiversity fin st items).2 = fin ∧ (collectDiversity fin st items).1.map (·.1) = items.map (·.obj) ∧
    ∀ k, k < items.length → ((collectDiversity fin st items).1.map (·.2))[k]? = some
      ⟨(((items.take (k + 1)).map cuts).toFinset ∪ plans).card,
        (((items.take (k + 1)).flatMap (fun x => x.parts.values)).toFinset ∪ districts).card, n + (k + 1)⟩
  | [], _, _, _, _, _, _ => by
    refine ⟨rfl, rfl, ?_⟩
    intro k hk
    simp at hk
  | x :: items, hc, st, plans, districts, n, h => by
    obtain ⟨st', hp, h'⟩ := h.pass (hc x List.mem_cons_self)
    obtain ⟨i1, i2, i3⟩ := collect_inv fin cuts items (fun y hy => hc y (List.mem_cons_of_mem _ hy)) h'
    unfold collectDiversity
    rw [hp]
    refine ⟨i1, by simpa using i2, ?_⟩
    intro k hk
    rcases k with _ | k
    · simp only [List.map_cons, List.getElem?_cons_zero, Nat.zero_add, List.take_succ_cons, List.take_zero, List.map_nil,
        List.toFinset_cons, List.toFinset_nil, List.flatMap_cons, List.flatMap_nil, List.append_nil]
      rw [Finset.insert_union, Finset.empty_union]
    · have hk' : k < items.length := by simpa using hk
      rw [List.map_cons, List.getElem?_cons_succ, i3 k hk', List.take_succ_cons]
      have e1 : ((items.take (k + 1)).map cuts).toFinset ∪ insert (cuts x) plans =
          ((x :: items.take (k + 1)).map cuts).toFinset ∪ plans := by
        ext t
        simp only [List.map_cons, List.toFinset_cons, Finset.mem_union, Finset.mem_insert]
        tauto
      have e2 : ((items.take (k + 1)).flatMap (fun x => x.parts.values)).toFinset ∪ (x.parts.values.toFinset ∪ districts) =
          ((x :: items.take (k + 1)).flatMap (fun x => x.parts.values)).toFinset ∪ districts := by
        ext t
        simp only [List.flatMap_cons, List.toFinset_append, Finset.mem_union]
        tauto
      rw [e1, e2, show n + 1 + (k + 1) = n + (k + 1 + 1) by omega]

/-- **C52** `collect_diversity_stats` passes the states through in order, ends as the chain ends, and with the `k`-th state reports `k` steps,
the number of different cut edge sets and the number of different districts (as node sets) among the first `k` states. -/
theorem C52_stats (fin : Option PyErr) (items : List (Seen V P X)) (cuts : Seen V P X → Finset (V × V))
    (hc : ∀ x ∈ items, x.cutEdges = .ok (cuts x)) :
    (collectDiversity fin .start items).2 = fin ∧ (collectDiversity fin .start items).1.map (·.1) = items.map (·.obj) ∧
    ∀ k, k < items.length → ((collectDiversity fin .start items).1.map (·.2))[k]? = some
      ⟨((items.take (k + 1)).map cuts).toFinset.card, ((items.take (k + 1)).flatMap (fun x => x.parts.values)).toFinset.card, k + 1⟩ := by
  obtain ⟨h1, h2, h3⟩ := collect_inv fin cuts items hc divInv_start
  refine ⟨h1, h2, fun k hk => ?_⟩
  rw [h3 k hk]
  simp

/-- **C52** If the cut edges of some state cannot be computed, the generator raises that exception there, after yielding exactly what it yields
for the states before. -/
theorem C52_error (fin : Option PyErr) (before after : List (Seen V P X)) (x : Seen V P X) (cuts : Seen V P X → Finset (V × V)) (e : PyErr)
    (hc : ∀ y ∈ before, y.cutEdges = .ok (cuts y)) (hx : x.cutEdges = .error e) :
    collectDiversity fin .start (before ++ x :: after) = ((collectDiversity none .start before).1, some e) := by
  generalize hst : (DiversityState.start : DiversityState V) = st
  have : ∃ plans districts n, DivInv st plans districts n := ⟨_, _, _, hst ▸ divInv_start⟩
  clear hst
  induction before generalizing st with
  | nil =>
    show collectDiversity fin st (x :: after) = _
    unfold collectDiversity DiversityState.pass
    simp only [hx, bind, Except.bind]
  | cons y before ih =>
    obtain ⟨plans, districts, n, h⟩ := this
    obtain ⟨st', hp, h'⟩ := h.pass (hc y List.mem_cons_self)
    have := ih (fun z hz => hc z (List.mem_cons_of_mem _ hz)) st' ⟨_, _, _, h'⟩
    show collectDiversity fin st (y :: (before ++ x :: after)) = _
    unfold collectDiversity
    rw [hp]
    simp only [this]

/-! ### Cut edges determine the districts of a contiguous plan -/

theorem values_get {d : Dict P (Finset V)} (h : d.WF) {s : Finset V} : s ∈ d.values ↔ ∃ p, d.get? p = some s := by
  unfold Dict.values
  rw [List.mem_map]
  constructor
  · rintro ⟨⟨p, s'⟩, he, rfl⟩
    exact ⟨p, (Dict.mem_entries_iff h).1 he⟩
  · rintro ⟨p, hp⟩
    exact ⟨(p, s), (Dict.mem_entries_iff h).2 hp, rfl⟩

theorem district_subset_of_cuts {G : Graph V} {a : Assignment V P} {b : Assignment V P'} (ha : a.Coherent) (hb : b.Coherent)
    (hcuts : cutsOf G a.mapping = cutsOf G b.mapping) {p : P} {q : P'} {s : Finset V} {t : Finset V} (hs : a.parts.get? p = some s)
    (ht : b.parts.get? q = some t) (hcon : ConnectedOn G s) {u : V} (hus : u ∈ s) (hut : u ∈ t) : s ⊆ t := by
  intro v hv
  have hr := hcon.2 u hus v hv
  induction hr with
  | refl => exact hut
  | @tail w v hw hwv ih =>
    have hwt := ih hwv.2.1
    have hsame : a.mapping.get? w = a.mapping.get? v := by
      rw [(ha.agree p s hs w).1 hwv.2.1, (ha.agree p s hs v).1 hwv.2.2]
    have hb' : b.mapping.get? w = b.mapping.get? v := by
      by_contra hne
      rcases le_total w v with hle | hle
      · have : (w, v) ∈ cutsOf G b.mapping := mem_cutsOf.2 ⟨⟨hle, hwv.1⟩, hne⟩
        rw [← hcuts] at this
        exact (mem_cutsOf.1 this).2 hsame
      · have : (v, w) ∈ cutsOf G b.mapping := mem_cutsOf.2 ⟨⟨hle, hwv.1.symm⟩, fun h => hne h.symm⟩
        rw [← hcuts] at this
        exact (mem_cutsOf.1 this).2 hsame.symm
    rw [hb.agree q t ht, ← hb']
    exact (hb.agree q t ht w).1 hwt

theorem districts_subset_of_cuts {G : Graph V} {a : Assignment V P} {b : Assignment V P'} (ha : a.Coherent) (hb : b.Coherent)
    (hca : a.Covers G.nodes) (hcb : b.Covers G.nodes) (hconA : ContiguousPlan G a) (hconB : ContiguousPlan G b)
    (hcuts : cutsOf G a.mapping = cutsOf G b.mapping) : a.parts.values.toFinset ⊆ b.parts.values.toFinset := by
  intro s hs
  rw [List.mem_toFinset] at hs ⊢
  obtain ⟨p, hp⟩ := (values_get ha.parts_wf).1 hs
  obtain ⟨u, hu⟩ := (hconA p s hp).1
  have hua := (ha.agree p s hp u).1 hu
  obtain ⟨q, hq⟩ := Dict.mem_keys_iff.1 ((hcb u).2 ((hca u).1 (Dict.mem_keys_iff.2 ⟨p, hua⟩)))
  obtain ⟨t, ht⟩ := Dict.mem_keys_iff.1 (hb.complete u q hq)
  have hut := (hb.agree q t ht u).2 hq
  have : s = t := Finset.Subset.antisymm (district_subset_of_cuts ha hb hcuts hp ht (hconA p s hp) hu hut)
    (district_subset_of_cuts hb ha hcuts.symm ht hp (hconB q t ht) hut hu)
  subst this
  exact (values_get hb.parts_wf).2 ⟨q, ht⟩

theorem same_iff {G : Graph V} {a : Assignment V P} (ha : a.Coherent) (hca : a.Covers G.nodes) {u v : V} (hu : u ∈ G.nodes) :
    a.mapping.get? u = a.mapping.get? v ↔ ∃ s ∈ a.parts.values.toFinset, u ∈ s ∧ v ∈ s := by
  obtain ⟨p, hp⟩ := Dict.mem_keys_iff.1 ((hca u).2 hu)
  obtain ⟨s, hs⟩ := Dict.mem_keys_iff.1 (ha.complete u p hp)
  constructor
  · intro h
    exact ⟨s, List.mem_toFinset.2 ((values_get ha.parts_wf).2 ⟨p, hs⟩), (ha.agree p s hs u).2 hp, (ha.agree p s hs v).2 (h ▸ hp)⟩
  · rintro ⟨t, ht, hut, hvt⟩
    obtain ⟨q, hq⟩ := (values_get ha.parts_wf).1 (List.mem_toFinset.1 ht)
    rw [(ha.agree q t hq u).1 hut, (ha.agree q t hq v).1 hvt]

/-- **C52** Two contiguous plans of a graph, with any labels, have the same cut edges exactly when they have the same districts. -/
theorem C52_cut_edges_iff (G : Graph V) (hG : G.WF) (a : Assignment V P) (b : Assignment V P') (ha : a.Coherent) (hb : b.Coherent)
    (hca : a.Covers G.nodes) (hcb : b.Covers G.nodes) (hconA : ContiguousPlan G a) (hconB : ContiguousPlan G b) :
    cutsOf G a.mapping = cutsOf G b.mapping ↔ a.parts.values.toFinset = b.parts.values.toFinset := by
  constructor
  · intro h
    exact Finset.Subset.antisymm (districts_subset_of_cuts ha hb hca hcb hconA hconB h) (districts_subset_of_cuts hb ha hcb hca hconB hconA h.symm)
  · intro h
    ext e
    rw [mem_cutsOf, mem_cutsOf]
    apply and_congr_right
    intro he
    have hn : e.1 ∈ G.nodes := by
      rcases he.2 with h | h
      · exact hG.fst_mem _ h
      · exact hG.snd_mem _ h
    exact not_iff_not.2 (by rw [same_iff ha hca hn, same_iff hb hcb hn, h])

theorem card_map_congr {A B C : Type} [DecidableEq B] [DecidableEq C] {f : A → B} {g : A → C} : ∀ l : List A,
    (∀ x ∈ l, ∀ y ∈ l, f x = f y ↔ g x = g y) → (l.map f).toFinset.card = (l.map g).toFinset.card
  | [], _ => rfl
  | a :: l, h => by
    have ih := card_map_congr l (fun x hx y hy => h x (List.mem_cons_of_mem _ hx) y (List.mem_cons_of_mem _ hy))
    have hm : f a ∈ (l.map f).toFinset ↔ g a ∈ (l.map g).toFinset := by
      simp only [List.mem_toFinset, List.mem_map]
      constructor
      · rintro ⟨x, hx, he⟩
        exact ⟨x, hx, (h x (List.mem_cons_of_mem _ hx) a List.mem_cons_self).1 he⟩
      · rintro ⟨x, hx, he⟩
        exact ⟨x, hx, (h x (List.mem_cons_of_mem _ hx) a List.mem_cons_self).2 he⟩
    simp only [List.map_cons, List.toFinset_cons]
    by_cases hf : f a ∈ (l.map f).toFinset
    · rw [Finset.insert_eq_of_mem hf, Finset.insert_eq_of_mem (hm.1 hf), ih]
    · rw [Finset.card_insert_of_notMem hf, Finset.card_insert_of_notMem (fun h => hf (hm.2 h)), ih]

/-- `x` is what the loop reads of a partition in some history of operations on partitions of the graph `D`. -/
def ReadFrom (D : GraphData V) (ups : List Key) (x : Seen V P X) (a : Assignment V P) : Prop :=
  ∃ (ops : List (Op V P)) (p : ℕ) (v : View V P) (limit : ℕ) (c : Finset (V × V)), (∀ op ∈ ops, op.WF) ∧
    (Heap.after D ups ops).frame.view p = some v ∧ v.assignment = a ∧ x.parts = a.parts ∧
    (Heap.after D ups ops).lookup p .cutEdges limit = .ok (.edgeSet c) ∧ x.cutEdges = .ok c

/-- **C52** For a chain of contiguous plans of one graph, `unique_plans` after `k` states is the number of different plans among them, where
plans that differ only in the labels of the districts count once. -/
theorem C52_unique_plans (D : GraphData V) (hD : D.graph.WF) (ups : List Key) (fin : Option PyErr) (items : List (Seen V P X))
    (plan : Seen V P X → Assignment V P) (hread : ∀ x ∈ items, ReadFrom D ups x (plan x))
    (hcon : ∀ x ∈ items, ContiguousPlan D.graph (plan x)) (k : ℕ) (hk : k < items.length) :
    ∃ stats, ((collectDiversity fin .start items).1.map (·.2))[k]? = some stats ∧ stats.stepsTaken = k + 1 ∧
      stats.uniquePlans = ((items.take (k + 1)).map (fun x => (plan x).parts.values.toFinset)).toFinset.card ∧
      stats.uniqueDistricts = ((items.take (k + 1)).flatMap (fun x => (plan x).parts.values)).toFinset.card := by
  have hcuts : ∀ x ∈ items, x.cutEdges = .ok (cutsOf D.graph (plan x).mapping) := by
    intro x hx
    obtain ⟨ops, p, v, limit, c, hops, hv, ha, -, hl, hc⟩ := hread x hx
    have := (lookup_correct hD hops hv hl).cutEdges
    rw [hc, ← ha]
    cases this
    rfl
  have hgood : ∀ x ∈ items, (plan x).Coherent ∧ (plan x).Covers D.graph.nodes ∧ x.parts = (plan x).parts := by
    intro x hx
    obtain ⟨ops, p, v, limit, c, hops, hv, ha, hp, -, -⟩ := hread x hx
    obtain ⟨hi, hd, -⟩ := after_inv (P := P) (ups := ups) hD hops
    have h1 := hi.frame.coherent p v hv
    have h2 := hi.frame.covers p v hv
    rw [hd] at h2
    rw [← ha]
    exact ⟨h1, h2, by rw [hp, ha]⟩
  refine ⟨_, (C52_stats fin items _ hcuts).2.2 k hk, rfl, ?_, ?_⟩
  · apply card_map_congr
    intro x hx y hy
    have hx := List.mem_of_mem_take hx
    have hy := List.mem_of_mem_take hy
    exact C52_cut_edges_iff D.graph hD _ _ (hgood x hx).1 (hgood y hy).1 (hgood x hx).2.1 (hgood y hy).2.1 (hcon x hx) (hcon y hy)
  · have : (items.take (k + 1)).flatMap (fun x => x.parts.values) = (items.take (k + 1)).flatMap (fun x => (plan x).parts.values) := by
      unfold List.flatMap
      rw [List.map_congr_left (fun x hx => by rw [(hgood x (List.mem_of_mem_take hx)).2.2])]
    simp only [this]

/-! ### Examples -/

/-- what the loop reads of the partition that an operation sequence creates as number `p` -/
def readSeen (ops : List (Op ℕ ℕ)) (p : ℕ) : Seen ℕ ℕ ℕ :=
  let H := Heap.after exData exUps ops
  ⟨p, ((H.frame.view p).map (·.assignment.parts)).getD .empty,
    (H.lookup p .cutEdges 9).bind (fun x => match x with | .edgeSet c => .ok c | _ => .error .typeError)⟩

/-- A plan of the path 0-1-2-3, the same with swapped labels, and one with another cut. -/
def exDivOps : List (Op ℕ ℕ) := [.create exDict, .create ⟨[(0, 2), (1, 2), (2, 1), (3, 1)]⟩, .flip 0 ⟨[(1, 2)]⟩]

example : (collectDiversity none .start [readSeen exDivOps 0, readSeen exDivOps 1, readSeen exDivOps 2]) =
    ([(0, ⟨1, 2, 1⟩), (1, ⟨1, 2, 2⟩), (2, ⟨2, 4, 3⟩)], none) := by decide +kernel

theorem exDivOps_wf : ∀ op ∈ exDivOps, op.WF := by
  intro op hop
  simp only [exDivOps, List.mem_cons, List.not_mem_nil, or_false] at hop
  rcases hop with rfl | rfl | rfl <;> simp [Op.WF, exDict, Dict.WF, Dict.keys]

/-- the hypotheses of `C52_unique_plans` are met by the states of the example -/
example : ∀ p ∈ [0, 1, 2], ∃ a, ReadFrom exData exUps (readSeen exDivOps p) a ∧
    a.parts.values.toFinset = (if p = 2 then {{0}, {1, 2, 3}} else {{0, 1}, {2, 3}}) := by
  intro p hp
  have hv : ((Heap.after exData exUps exDivOps).frame.view p).map (fun v => v.assignment.parts.values.toFinset) =
      some (if p = 2 then {{0}, {1, 2, 3}} else {{0, 1}, {2, 3}}) := by revert p; decide +kernel
  obtain ⟨v, hv1, hv2⟩ := Option.map_eq_some_iff.1 hv
  have hl : (Heap.after exData exUps exDivOps).lookup p .cutEdges 9 = .ok (.edgeSet (if p = 2 then {(0, 1)} else {(1, 2)})) := by
    clear hv hv1 hv2; revert p; decide +kernel
  refine ⟨v.assignment, ⟨exDivOps, p, v, 9, _, exDivOps_wf, hv1, rfl, ?_, hl, ?_⟩, hv2⟩
  · unfold readSeen; simp only [hv1]; rfl
  · unfold readSeen; simp only [hl]; rfl

/-- Remark: without contiguity different plans can have the same cut edges (here those of the path 0-1-2-3 into two and into four districts), and
`unique_plans` counts them once. -/
theorem C52_discontiguous_remark :
    let ops : List (Op ℕ ℕ) := [.create ⟨[(0, 1), (1, 2), (2, 1), (3, 2)]⟩, .create ⟨[(0, 1), (1, 2), (2, 3), (3, 4)]⟩]
    (collectDiversity none .start [readSeen ops 0, readSeen ops 1]) = ([(0, ⟨1, 2, 1⟩), (1, ⟨1, 6, 2⟩)], none) := by decide +kernel

end GC

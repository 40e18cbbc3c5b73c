import Verif.Spec.Updaters
import Verif.Lemmas.Assignment
import Mathlib.Algebra.BigOperators.Group.Finset.Piecewise
import Mathlib.Tactic.Ring

/-!
# Lemmas on the pure parts of the updaters
-/

set_option linter.unusedSectionVars false

set_option autoImplicit false

namespace GC

variable {V P : Type} [LinearOrder V] [DecidableEq P]

/-! ### neighbor flips, cut edges -/

theorem mem_neighborFlips {G : Graph V} (hG : G.WF) {flips : Dict V P} {e : V × V} :
    e ∈ neighborFlips G flips ↔ IsSortedEdge G e ∧ (e.1 ∈ flips.keys ∨ e.2 ∈ flips.keys) := by
  unfold neighborFlips IsSortedEdge
  simp only [Finset.mem_biUnion, List.mem_toFinset, Finset.mem_image, Graph.mem_neighbors hG]
  constructor
  · rintro ⟨a, ha, b, hab, rfl⟩
    unfold sortPair
    split
    · rename_i hle; exact ⟨⟨hle, hab⟩, Or.inl ha⟩
    · rename_i hle; exact ⟨⟨(not_le.1 hle).le, hab.symm⟩, Or.inr ha⟩
  · rintro ⟨⟨hle, hadj⟩, h | h⟩
    · exact ⟨e.1, h, e.2, hadj, by unfold sortPair; rw [if_pos hle]⟩
    · exact ⟨e.2, h, e.1, hadj.symm, by rw [sortPair_comm]; unfold sortPair; rw [if_pos hle]⟩

theorem cutEdgesInit_eq {G : Graph V} {m : Dict V P} : cutEdgesInit G m = cutsOf G m := by
  ext e
  unfold cutEdgesInit cutsOf crossesParts
  simp only [Finset.mem_filter, Finset.mem_image, decide_eq_true_eq]
  constructor
  · rintro ⟨a, ⟨h1, h2⟩, rfl⟩
    refine ⟨⟨a, h1, rfl⟩, ?_⟩
    rcases sortPair_eq_or a with h | h <;> rw [h]
    · exact h2
    · exact h2.symm
  · rintro ⟨⟨a, h1, rfl⟩, h2⟩
    refine ⟨a, ⟨h1, ?_⟩, rfl⟩
    rcases sortPair_eq_or a with h | h <;> rw [h] at h2
    · exact h2
    · exact h2.symm

theorem cutEdgesStep_eq {G : Graph V} (hG : G.WF) {flips old m : Dict V P}
    (hm : ∀ v, v ∉ flips.keys → m.get? v = old.get? v) :
    cutEdgesStep G flips old m (cutsOf G old) = cutsOf G m := by
  ext e
  unfold cutEdgesStep newCuts obsoleteCuts crossesParts
  simp only [Finset.mem_sdiff, Finset.mem_union, mem_cutsOf, Finset.mem_filter, mem_neighborFlips hG,
    decide_eq_true_eq, Bool.and_eq_true, Bool.not_eq_true', decide_eq_false_iff_not, not_not]
  by_cases h1 : e.1 ∈ flips.keys
  · tauto
  · by_cases h2 : e.2 ∈ flips.keys
    · tauto
    · rw [hm _ h1, hm _ h2]; tauto

/-! ### put_edges_into_parts -/

theorem putEdges_fold {m : Dict V P} (l : List (V × V)) (d : Dict P (Finset (V × V)))
    (hl : ∀ e ∈ l, e.1 ∈ m.keys ∧ e.2 ∈ m.keys) :
    ∃ d', l.foldlM (fun (byPart : Dict P (Finset (V × V))) e => do
        let p ← m.get e.1
        let q ← m.get e.2
        return (byPart.modifyD p ∅ (insert e)).modifyD q ∅ (insert e)) d = (.ok d' : Py _) ∧
      ∀ p e, e ∈ (d'.get? p).getD ∅ ↔ e ∈ (d.get? p).getD ∅ ∨
        (e ∈ l ∧ (m.get? e.1 = some p ∨ m.get? e.2 = some p)) := by
  induction l generalizing d with
  | nil => exact ⟨d, rfl, by simp⟩
  | cons x xs ih =>
    obtain ⟨⟨p, hp⟩, q, hq⟩ : (∃ p, m.get? x.1 = some p) ∧ ∃ p, m.get? x.2 = some p := by
      have := hl x List.mem_cons_self
      rwa [Dict.mem_keys_iff, Dict.mem_keys_iff] at this
    obtain ⟨d', h1, h2⟩ := ih ((d.modifyD p ∅ (insert x)).modifyD q ∅ (insert x))
      (fun e he => hl e (List.mem_cons_of_mem _ he))
    refine ⟨d', ?_, ?_⟩
    · rw [List.foldlM_cons]
      simp only [Dict.get, hp, hq]
      exact h1
    · intro r e
      rw [h2]
      simp only [Dict.get?_modifyD, List.mem_cons]
      by_cases hr : r = q
      · subst hr
        by_cases hr : r = p
        · subst hr
          simp only [if_true, Option.getD_some, Finset.mem_insert]
          by_cases hx : e = x
          · subst hx; simp [hp]
          · simp [hx]
        · simp only [if_true, Option.getD_some, Finset.mem_insert, hr, if_false]
          by_cases hx : e = x
          · subst hx; simp [hq]
          · simp [hx]
      · by_cases hr' : r = p
        · subst hr'
          simp only [hr, if_true, if_false, Option.getD_some, Finset.mem_insert]
          by_cases hx : e = x
          · subst hx; simp [hp]
          · simp [hx]
        · simp only [hr, hr', if_false]
          by_cases hx : e = x
          · subst hx
            have a1 : ¬ p = r := fun h => hr' h.symm
            have a2 : ¬ q = r := fun h => hr h.symm
            simp [hp, hq, a1, a2]
          · simp [hx]

theorem putEdgesIntoParts_ok {m : Dict V P} {s : Finset (V × V)} (hs : ∀ e ∈ s, e.1 ∈ m.keys ∧ e.2 ∈ m.keys) :
    ∃ d', putEdgesIntoParts s m = .ok d' ∧
      ∀ p e, e ∈ (d'.get? p).getD ∅ ↔ (e ∈ s ∧ (m.get? e.1 = some p ∨ m.get? e.2 = some p)) := by
  obtain ⟨d', h1, h2⟩ := putEdges_fold (iterE s) Dict.empty (by simpa using hs)
  exact ⟨d', h1, fun p e => by rw [h2]; simp⟩

/-! ### edge flows -/

/-- `e` is cut and touches district `p`. -/
def Inc (m : Dict V P) (e : V × V) (p : P) : Prop :=
  m.get? e.1 ≠ m.get? e.2 ∧ (m.get? e.1 = some p ∨ m.get? e.2 = some p)

theorem edgeFlowStep_ok {old new : Dict V P} (ef : Dict P (Flow (V × V))) {e : V × V} {os ot ns nt : P}
    (h1 : old.get? e.1 = some os) (h2 : old.get? e.2 = some ot) (h3 : new.get? e.1 = some ns)
    (h4 : new.get? e.2 = some nt) :
    ∃ ef', edgeFlowStep old new ef e = .ok ef' ∧
      (∀ x p, x ∈ flowIn ef' p ↔ x ∈ flowIn ef p ∨ (x = e ∧ Inc new e p ∧ ¬ Inc old e p)) ∧
      (∀ x p, x ∈ flowOut ef' p ↔ x ∈ flowOut ef p ∨ (x = e ∧ Inc old e p ∧ ¬ Inc new e p)) ∧
      (∀ p, p ∈ ef'.keys → p ∈ ef.keys ∨ p = os ∨ p = ot ∨ p = ns ∨ p = nt) ∧
      (ef.WF → ef'.WF) := by
  simp only [edgeFlowStep, Dict.get, h1, h2, h3, h4, Inc, Option.some.injEq, ne_eq]
  simp only [bind, Except.bind, pure, Except.pure]
  by_cases hc : ns = nt
  · by_cases hw : os = ot
    · subst hc hw
      simp
      tauto
    · subst hc
      simp only [hw, not_true_eq_false, not_false_eq_true, and_self, if_true, false_and, false_and, and_false,
        or_false, true_and]
      refine ⟨_, rfl, ?_, ?_, ?_, ?_⟩
      · intro x p; rw [mem_flowIn_addOut, mem_flowIn_addOut]
      · intro x p; rw [mem_flowOut_addOut, mem_flowOut_addOut]
        simp only [eq_comm (a := os), eq_comm (a := ot)]
        tauto
      · intro p; simp only [Dict.modifyD, Dict.mem_keys_set]; tauto
      · intro h; exact (h.modifyD _ _ _).modifyD _ _ _
  · by_cases hw : os = ot
    · subst hw
      simp only [hc, not_true_eq_false, not_false_eq_true, and_self, if_true, false_and, and_false, if_false,
        or_false, true_and, and_true]
      refine ⟨_, rfl, ?_, ?_, ?_, ?_⟩
      · intro x p; rw [mem_flowIn_addIn, mem_flowIn_addIn]
        simp only [eq_comm (a := ns), eq_comm (a := nt)]
        tauto
      · intro x p; rw [mem_flowOut_addIn, mem_flowOut_addIn]
      · intro p; simp only [Dict.modifyD, Dict.mem_keys_set]; tauto
      · intro h; exact (h.modifyD _ _ _).modifyD _ _ _
    · simp only [hc, hw, not_true_eq_false, not_false_eq_true, and_self, if_true, false_and, and_false, if_false,
        or_false, true_and, and_true]
      refine ⟨_, rfl, ?_⟩
      have key1 : ∀ (l : List P) (ef : Dict P (Flow (V × V))),
          (∀ x p, x ∈ flowIn (l.foldl (fun ef p => ef.modifyD p Flow.create (Flow.addOut e)) ef) p ↔ x ∈ flowIn ef p) ∧
          (∀ x p, x ∈ flowOut (l.foldl (fun ef p => ef.modifyD p Flow.create (Flow.addOut e)) ef) p ↔
            x ∈ flowOut ef p ∨ (x = e ∧ p ∈ l)) ∧
          (∀ p, p ∈ (l.foldl (fun ef p => ef.modifyD p Flow.create (Flow.addOut e)) ef).keys ↔ p ∈ ef.keys ∨ p ∈ l) ∧
          (ef.WF → (l.foldl (fun ef p => ef.modifyD p Flow.create (Flow.addOut e)) ef).WF) := by
        intro l
        induction l with
        | nil => intro ef; simp
        | cons a l ih =>
          intro ef
          obtain ⟨i1, i2, i3, i4⟩ := ih (ef.modifyD a Flow.create (Flow.addOut e))
          simp only [List.foldl_cons]
          refine ⟨?_, ?_, ?_, ?_⟩
          · intro x p; rw [i1, mem_flowIn_addOut]
          · intro x p; rw [i2, mem_flowOut_addOut, List.mem_cons]; tauto
          · intro p; rw [i3]; simp only [Dict.modifyD, Dict.mem_keys_set, List.mem_cons]; tauto
          · intro h; exact i4 (h.modifyD _ _ _)
      have key2 : ∀ (l : List P) (ef : Dict P (Flow (V × V))),
          (∀ x p, x ∈ flowOut (l.foldl (fun ef p => ef.modifyD p Flow.create (Flow.addIn e)) ef) p ↔ x ∈ flowOut ef p) ∧
          (∀ x p, x ∈ flowIn (l.foldl (fun ef p => ef.modifyD p Flow.create (Flow.addIn e)) ef) p ↔
            x ∈ flowIn ef p ∨ (x = e ∧ p ∈ l)) ∧
          (∀ p, p ∈ (l.foldl (fun ef p => ef.modifyD p Flow.create (Flow.addIn e)) ef).keys ↔ p ∈ ef.keys ∨ p ∈ l) ∧
          (ef.WF → (l.foldl (fun ef p => ef.modifyD p Flow.create (Flow.addIn e)) ef).WF) := by
        intro l
        induction l with
        | nil => intro ef; simp
        | cons a l ih =>
          intro ef
          obtain ⟨i1, i2, i3, i4⟩ := ih (ef.modifyD a Flow.create (Flow.addIn e))
          simp only [List.foldl_cons]
          refine ⟨?_, ?_, ?_, ?_⟩
          · intro x p; rw [i1, mem_flowOut_addIn]
          · intro x p; rw [i2, mem_flowIn_addIn, List.mem_cons]; tauto
          · intro p; rw [i3]; simp only [Dict.modifyD, Dict.mem_keys_set, List.mem_cons]; tauto
          · intro h; exact i4 (h.modifyD _ _ _)
      obtain ⟨a1, a2, a3, a4⟩ := key1 ([ot, os].filter (fun p => ¬ p = nt ∧ ¬ p = ns)) ef
      obtain ⟨b1, b2, b3, b4⟩ := key2 ([nt, ns].filter (fun p => ¬ p = ot ∧ ¬ p = os))
        (([ot, os].filter (fun p => ¬ p = nt ∧ ¬ p = ns)).foldl
          (fun ef p => ef.modifyD p Flow.create (Flow.addOut e)) ef)
      refine ⟨?_, ?_, ?_, ?_⟩
      · intro x p
        rw [b2, a1]
        simp only [List.mem_filter, List.mem_cons, List.not_mem_nil, or_false, decide_eq_true_eq]
        apply or_congr_right
        apply and_congr_right
        intro _
        simp only [eq_comm (a := ns), eq_comm (a := nt), eq_comm (a := os), eq_comm (a := ot)]
        tauto
      · intro x p
        rw [b1, a2]
        simp only [List.mem_filter, List.mem_cons, List.not_mem_nil, or_false, decide_eq_true_eq]
        apply or_congr_right
        apply and_congr_right
        intro _
        simp only [eq_comm (a := ns), eq_comm (a := nt), eq_comm (a := os), eq_comm (a := ot)]
        tauto
      · intro p
        rw [b3, a3]
        simp only [List.mem_filter, List.mem_cons, List.not_mem_nil, or_false]
        tauto
      · intro h; exact b4 (a4 h)

/-- What `compute_edge_flows` returns. -/
structure EdgeFlowsSpec (G : Graph V) (old new : Dict V P) (ef : Dict P (Flow (V × V))) : Prop where
  wf : ef.WF
  mem_in : ∀ e p, e ∈ flowIn ef p ↔ IsSortedEdge G e ∧ Inc new e p ∧ ¬ Inc old e p
  mem_out : ∀ e p, e ∈ flowOut ef p ↔ IsSortedEdge G e ∧ Inc old e p ∧ ¬ Inc new e p
  mem_keys : ∀ p, p ∈ ef.keys → ∃ v, old.get? v = some p ∨ new.get? v = some p

theorem edgeFlows_fold {old new : Dict V P} (l : List (V × V)) (ef : Dict P (Flow (V × V)))
    (hl : ∀ e ∈ l, (e.1 ∈ old.keys ∧ e.2 ∈ old.keys) ∧ (e.1 ∈ new.keys ∧ e.2 ∈ new.keys)) :
    ∃ ef', l.foldlM (edgeFlowStep old new) ef = .ok ef' ∧
      (∀ x p, x ∈ flowIn ef' p ↔ x ∈ flowIn ef p ∨ (x ∈ l ∧ Inc new x p ∧ ¬ Inc old x p)) ∧
      (∀ x p, x ∈ flowOut ef' p ↔ x ∈ flowOut ef p ∨ (x ∈ l ∧ Inc old x p ∧ ¬ Inc new x p)) ∧
      (∀ p, p ∈ ef'.keys → p ∈ ef.keys ∨ ∃ v, old.get? v = some p ∨ new.get? v = some p) ∧
      (ef.WF → ef'.WF) := by
  induction l generalizing ef with
  | nil => exact ⟨ef, rfl, by simp, by simp, by tauto, id⟩
  | cons a l ih =>
    obtain ⟨⟨k1, k2⟩, k3, k4⟩ := hl a List.mem_cons_self
    rw [Dict.mem_keys_iff] at k1 k2 k3 k4
    obtain ⟨os, k1⟩ := k1
    obtain ⟨ot, k2⟩ := k2
    obtain ⟨ns, k3⟩ := k3
    obtain ⟨nt, k4⟩ := k4
    obtain ⟨ef1, h0, h1, h2, h3, h4⟩ := edgeFlowStep_ok ef k1 k2 k3 k4
    obtain ⟨ef', g0, g1, g2, g3, g4⟩ := ih ef1 (fun e he => hl e (List.mem_cons_of_mem _ he))
    refine ⟨ef', ?_, ?_, ?_, ?_, fun h => g4 (h4 h)⟩
    · rw [List.foldlM_cons, h0]; exact g0
    · intro x p; rw [g1, h1, List.mem_cons, or_assoc]
      apply or_congr_right
      constructor
      · rintro (⟨rfl, h⟩ | ⟨hx, h⟩)
        · exact ⟨Or.inl rfl, h⟩
        · exact ⟨Or.inr hx, h⟩
      · rintro ⟨rfl | hx, h⟩
        · exact Or.inl ⟨rfl, h⟩
        · exact Or.inr ⟨hx, h⟩
    · intro x p; rw [g2, h2, List.mem_cons, or_assoc]
      apply or_congr_right
      constructor
      · rintro (⟨rfl, h⟩ | ⟨hx, h⟩)
        · exact ⟨Or.inl rfl, h⟩
        · exact ⟨Or.inr hx, h⟩
      · rintro ⟨rfl | hx, h⟩
        · exact Or.inl ⟨rfl, h⟩
        · exact Or.inr ⟨hx, h⟩
    · intro p hp
      rcases g3 p hp with hp | hp
      · rcases h3 p hp with hp | rfl | rfl | rfl | rfl
        · exact Or.inl hp
        · exact Or.inr ⟨_, Or.inl k1⟩
        · exact Or.inr ⟨_, Or.inl k2⟩
        · exact Or.inr ⟨_, Or.inr k3⟩
        · exact Or.inr ⟨_, Or.inr k4⟩
      · exact Or.inr hp

theorem computeEdgeFlows_ok {G : Graph V} (hG : G.WF) {flips old new : Dict V P}
    (hold : ∀ v ∈ G.nodes, v ∈ old.keys) (hnew : ∀ v ∈ G.nodes, v ∈ new.keys)
    (hm : ∀ v, v ∉ flips.keys → new.get? v = old.get? v) :
    ∃ ef, computeEdgeFlows G flips old new = .ok ef ∧ EdgeFlowsSpec G old new ef := by
  obtain ⟨ef, h0, h1, h2, h3, h4⟩ := edgeFlows_fold (old := old) (new := new) (iterE (neighborFlips G flips))
    Dict.empty (by
      intro e he
      rw [mem_iterE, mem_neighborFlips hG] at he
      obtain ⟨k1, k2⟩ := hG.mem_of_adj he.1.2
      exact ⟨⟨hold _ k1, hold _ k2⟩, hnew _ k1, hnew _ k2⟩)
  have hno : ∀ e p, (e.1 ∉ flips.keys ∧ e.2 ∉ flips.keys) → (Inc new e p ↔ Inc old e p) := by
    rintro e p ⟨k1, k2⟩
    unfold Inc
    rw [hm _ k1, hm _ k2]
  refine ⟨ef, h0, h4 Dict.wf_empty, ?_, ?_, ?_⟩
  · intro e p
    rw [h1, mem_iterE, mem_neighborFlips hG]
    have := hno e p
    simp only [flowIn, Dict.get?_empty, Option.getD_none, Flow.create, Finset.notMem_empty, false_or]
    tauto
  · intro e p
    rw [h2, mem_iterE, mem_neighborFlips hG]
    have := hno e p
    simp only [flowOut, Dict.get?_empty, Option.getD_none, Flow.create, Finset.notMem_empty, false_or]
    tauto
  · intro p hp
    rcases h3 p hp with h | h
    · simp at h
    · exact h

/-! ### tallies -/

@[simp] theorem Num.sub_coe (a b : ℚ) : Num.sub (a : Num) (b : Num) = ((a - b : ℚ) : Num) := rfl

theorem Num.coe_unbotD {x : Num} (h : x ≠ ⊥) : ((x.unbotD 0 : ℚ) : Num) = x := by
  cases x with
  | none => exact absurd rfl h
  | some a => rfl

theorem sumOver_eq {val : V → Num} {s : Finset V} (h : ∀ v ∈ s, val v ≠ ⊥) :
    sumOver val s = ((sumSkipNaN val s : ℚ) : Num) := by
  unfold sumOver sumSkipNaN
  induction s using Finset.induction_on with
  | empty => rfl
  | insert a s ha ih =>
    rw [Finset.sum_insert ha, Finset.sum_insert ha, WithBot.coe_add,
      ih (fun v hv => h v (Finset.mem_insert_of_mem hv)), Num.coe_unbotD (h a (Finset.mem_insert_self _ _))]

theorem sum_flow {α : Type} [DecidableEq α] {s t i o : Finset α} (f : α → ℚ)
    (ht : ∀ x, x ∈ t ↔ (x ∈ s ∧ x ∉ o) ∨ x ∈ i) (ho : ∀ x ∈ o, x ∈ s) (hi : ∀ x ∈ i, x ∉ s) :
    t.sum f = s.sum f - o.sum f + i.sum f := by
  have h1 : t = (s \ o) ∪ i := by ext x; simp [ht]
  have h2 : Disjoint (s \ o) i := by
    rw [Finset.disjoint_left]; intro x hx hx'; exact hi x hx' (Finset.mem_sdiff.1 hx).1
  rw [h1, Finset.sum_union h2]
  have := Finset.sum_sdiff (f := f) (show o ⊆ s from ho)
  rw [← this]; ring

/-- What a child's districts are, in terms of the flows. -/
theorem partOf_flow {a b : Assignment V P} (ha : a.Coherent) {flips : Dict V P} {flows : Dict P (Flow V)}
    (hs : FlipSpec a flips b) (hf : FlowsSpec a.mapping flips flows) (p : P) :
    (∀ v, v ∈ b.partOf p ↔ (v ∈ a.partOf p ∧ v ∉ flowOut flows p) ∨ v ∈ flowIn flows p) ∧
    (∀ v ∈ flowOut flows p, v ∈ a.partOf p) ∧ (∀ v ∈ flowIn flows p, v ∉ a.partOf p) := by
  refine ⟨?_, ?_, ?_⟩
  · intro v
    rw [hs.coherent.mem_partOf, ha.mem_partOf, hf.mem_in, hf.mem_out, hs.get?]
    rcases hv : flips.get? v with _ | q
    · simp
    · simp only [Option.some_or, Option.some.injEq]
      obtain ⟨r, hr⟩ := hs.known v q hv
      rw [hr]
      simp only [Option.some.injEq]
      by_cases h1 : q = p
      · subst h1; simp [eq_comm]; tauto
      · simp [h1]
  · intro v hv
    rw [hf.mem_out] at hv
    exact (ha.mem_partOf p v).2 hv.1
  · intro v hv
    rw [hf.mem_in] at hv
    rw [ha.mem_partOf]; exact hv.2

theorem sum_partOf_flow {a b : Assignment V P} (ha : a.Coherent) {flips : Dict V P} {flows : Dict P (Flow V)}
    (hs : FlipSpec a flips b) (hf : FlowsSpec a.mapping flips flows) (p : P) (f : V → ℚ) :
    (b.partOf p).sum f = (a.partOf p).sum f - (flowOut flows p).sum f + (flowIn flows p).sum f := by
  obtain ⟨h1, h2, h3⟩ := partOf_flow ha hs hf p
  exact sum_flow f h1 h2 h3

theorem partOf_noflow {a b : Assignment V P} (ha : a.Coherent) {flips : Dict V P} {flows : Dict P (Flow V)}
    (hs : FlipSpec a flips b) (hf : FlowsSpec a.mapping flips flows) {p : P} (hp : p ∉ flows.keys) :
    b.partOf p = a.partOf p := by
  obtain ⟨h1, -, -⟩ := partOf_flow ha hs hf p
  ext v
  rw [h1]
  have := Dict.get?_eq_none_iff.2 hp
  simp [flowIn, flowOut, this, Flow.create]

theorem partOf_eq_filter {a : Assignment V P} (ha : a.Coherent) (p : P) :
    a.partOf p = ((a.mapping.entries.filter (fun e => e.2 = p)).map (·.1)).toFinset := by
  ext v
  rw [ha.mem_partOf]
  simp only [List.mem_toFinset, List.mem_map, List.mem_filter, decide_eq_true_eq]
  constructor
  · intro h; exact ⟨(v, p), ⟨Dict.mem_entries_of_get? h, rfl⟩, rfl⟩
  · rintro ⟨⟨w, q⟩, ⟨h, rfl⟩, rfl⟩; exact Dict.get?_of_mem_entries ha.mapping_wf h

theorem sum_partOf {a : Assignment V P} (ha : a.Coherent) (p : P) (f : V → ℚ) :
    (a.partOf p).sum f = ((a.mapping.entries.filter (fun e => e.2 = p)).map (fun e => f e.1)).sum := by
  rw [partOf_eq_filter ha, List.sum_toFinset, List.map_map]
  · rfl
  · have h : ((a.mapping.entries.filter (fun e => e.2 = p)).map (·.1)).Sublist a.mapping.keys :=
      List.Sublist.map _ List.filter_sublist
    exact h.nodup ha.mapping_wf

theorem tallyInit_fold (val : V → Num) (l : List (V × P)) (d : Dict P Num) (p : P) :
    (p ∈ (l.foldl (fun t e => if val e.1 = ⊥ then t else t.modifyD e.2 0 (· + val e.1)) d).keys ↔
      p ∈ d.keys ∨ ∃ v, (v, p) ∈ l ∧ val v ≠ ⊥) ∧
    ∀ q : ℚ, (d.get? p).getD 0 = (q : Num) →
      ((l.foldl (fun t e => if val e.1 = ⊥ then t else t.modifyD e.2 0 (· + val e.1)) d).get? p).getD 0 =
        ((q + ((l.filter (fun e => e.2 = p)).map (fun e => (val e.1).unbotD 0)).sum : ℚ) : Num) := by
  induction l generalizing d with
  | nil => simp
  | cons e l ih =>
    obtain ⟨w, r⟩ := e
    simp only [List.foldl_cons]
    by_cases hb : val w = ⊥
    · rw [if_pos hb]
      refine ⟨?_, ?_⟩
      · rw [(ih d).1]
        apply or_congr_right
        constructor
        · rintro ⟨v, h1, h2⟩; exact ⟨v, List.mem_cons_of_mem _ h1, h2⟩
        · rintro ⟨v, h1, h2⟩
          rcases List.mem_cons.1 h1 with h1 | h1
          · cases h1; exact absurd hb h2
          · exact ⟨v, h1, h2⟩
      · intro q hq
        rw [(ih d).2 q hq]
        by_cases hr : r = p
        · simp [hr, hb]
        · simp [hr]
    · rw [if_neg hb]
      refine ⟨?_, ?_⟩
      · rw [(ih _).1]
        simp only [Dict.modifyD, Dict.mem_keys_set, List.mem_cons, Prod.mk.injEq]
        constructor
        · rintro ((rfl | h) | ⟨v, h1, h2⟩)
          · exact Or.inr ⟨w, Or.inl ⟨rfl, rfl⟩, hb⟩
          · exact Or.inl h
          · exact Or.inr ⟨v, Or.inr h1, h2⟩
        · rintro (h | ⟨v, ⟨rfl, rfl⟩ | h1, h2⟩)
          · exact Or.inl (Or.inr h)
          · exact Or.inl (Or.inl rfl)
          · exact Or.inr ⟨v, h1, h2⟩
      · intro q hq
        by_cases hr : r = p
        · subst hr
          rw [(ih _).2 (q + (val w).unbotD 0)]
          · simp only [List.filter_cons, decide_true, if_true, List.map_cons, List.sum_cons]
            congr 1; ring
          · rw [Dict.get?_modifyD, if_pos rfl, Option.getD_some, hq, WithBot.coe_add, Num.coe_unbotD hb]
        · rw [(ih _).2 q]
          · simp [hr]
          · rw [Dict.get?_modifyD, if_neg (fun h => hr h.symm), hq]

theorem tallyInit_ok {a : Assignment V P} (ha : a.Coherent) (val : V → Num) (moved : V → Prop) :
    TallyOK val moved a (tallyInit val a.mapping) := by
  intro _
  have hk : ∀ p, p ∈ (tallyInit val a.mapping).keys ↔ ∃ v, v ∈ a.partOf p ∧ val v ≠ ⊥ := by
    intro p
    rw [tallyInit, (tallyInit_fold val _ _ p).1]
    simp only [Dict.keys_empty, List.not_mem_nil, false_or]
    apply exists_congr; intro v
    rw [ha.mem_partOf, Dict.mem_entries_iff ha.mapping_wf]
  refine ⟨?_, ?_, ?_⟩
  · intro p x hx
    have := (tallyInit_fold val a.mapping.entries Dict.empty p).2 0 (by simp)
    rw [zero_add, ← sum_partOf ha p (fun v => (val v).unbotD 0)] at this
    change ((tallyInit val a.mapping).get? p).getD 0 = _ at this
    rw [hx] at this
    exact this
  · intro p v hv hb; exact (hk p).2 ⟨v, hv, hb⟩
  · intro p hp
    obtain ⟨v, hv, -⟩ := (hk p).1 hp
    exact ha.complete v p ((ha.mem_partOf p v).1 hv)

/-- The pattern `for k, x in l: d[k] = f(k, x)`, with `f` possibly raising. -/
theorem foldlM_set_ok {K A B : Type} [DecidableEq K] (f : K × A → Py B) (l : List (K × A))
    (hl : (l.map (·.1)).Nodup) (d d' : Dict K B)
    (h : l.foldlM (fun (t : Dict K B) e => do let y ← f e; return t.set e.1 y) d = (.ok d' : Py _)) :
    (∀ e ∈ l, ∃ y, f e = .ok y ∧ d'.get? e.1 = some y) ∧
    (∀ k, k ∉ l.map (·.1) → d'.get? k = d.get? k) := by
  induction l generalizing d with
  | nil =>
    simp only [List.foldlM_nil, Py.pure_eq_ok] at h; subst h; simp
  | cons e l ih =>
    rw [List.foldlM_cons, Py.bind_eq_ok] at h
    obtain ⟨d1, h1, h⟩ := h
    rw [Py.bind_eq_ok] at h1
    obtain ⟨y, hy, h1⟩ := h1
    rw [Py.pure_eq_ok] at h1
    subst h1
    simp only [List.map_cons, List.nodup_cons] at hl
    obtain ⟨i1, i2⟩ := ih hl.2 _ h
    refine ⟨?_, ?_⟩
    · intro x hx
      rcases List.mem_cons.1 hx with rfl | hx
      · exact ⟨y, hy, by rw [i2 _ hl.1, Dict.get?_set_self]⟩
      · exact i1 x hx
    · intro k hk
      simp only [List.map_cons, List.mem_cons, not_or] at hk
      rw [i2 k hk.2, Dict.get?_set_ne _ _ hk.1]

theorem foldlM_set_error {K A B : Type} [DecidableEq K] (f : K × A → Py B) (l : List (K × A))
    (d : Dict K B) (err : PyErr)
    (h : l.foldlM (fun (t : Dict K B) e => do let y ← f e; return t.set e.1 y) d = (.error err : Py _)) :
    ∃ e ∈ l, f e = .error err := by
  induction l generalizing d with
  | nil => simp at h
  | cons e l ih =>
    rw [List.foldlM_cons, Py.bind_eq_error] at h
    rcases h with h | ⟨d1, h1, h⟩
    · rw [Py.bind_eq_error] at h
      rcases h with h | ⟨y, hy, h⟩
      · exact ⟨e, List.mem_cons_self, h⟩
      · simp at h
    · obtain ⟨x, hx, h⟩ := ih _ h
      exact ⟨x, List.mem_cons_of_mem _ hx, h⟩

theorem flow_entry {α : Type} {flows : Dict P (Flow α)} (hw : flows.WF) {e : P × Flow α} (he : e ∈ flows.entries) :
    e.2.inn = flowIn flows e.1 ∧ e.2.out = flowOut flows e.1 := by
  have := Dict.get?_of_mem_entries hw (k := e.1) (v := e.2) he
  simp [flowIn, flowOut, this]

/-- Both orders of adding and subtracting flows give a right tally. -/
theorem tally_step_ok {a b : Assignment V P} (ha : a.Coherent) {flips : Dict V P} {flows : Dict P (Flow V)}
    (hs : FlipSpec a flips b) (hf : FlowsSpec a.mapping flips flows) (val : V → Num) (moved moved' : V → Prop)
    (hmv : ∀ v, moved v → moved' v) (hfl : ∀ v ∈ flips.keys, moved' v)
    (g : Num → Finset V → Finset V → Num)
    (hg : ∀ (x : ℚ) i o, (∀ v ∈ i, val v ≠ ⊥) → (∀ v ∈ o, val v ≠ ⊥) →
      g (x : Num) i o = ((x - sumSkipNaN val o + sumSkipNaN val i : ℚ) : Num))
    {d d' : Dict P Num} (hd : TallyOK val moved a d)
    (h : flows.entries.foldlM (fun (t : Dict P Num) e => do
      let y ← (do let old ← d.get e.1; return g old e.2.inn e.2.out)
      return t.set e.1 y) d = (.ok d' : Py _)) :
    TallyOK val moved' b d' := by
  intro hm
  obtain ⟨d1, d2, d3⟩ := hd (fun v hv => hm v (hmv v hv))
  obtain ⟨k1, k2⟩ := foldlM_set_ok (fun e : P × Flow V => do let old ← d.get e.1; return g old e.2.inn e.2.out)
    flows.entries hf.wf d d' h
  have hfin : ∀ p v, v ∈ flowIn flows p → val v ≠ ⊥ := by
    intro p v hv
    rw [hf.mem_in] at hv
    exact hm v (hfl v (Dict.mem_keys_iff.2 ⟨_, hv.1⟩))
  have hfout : ∀ p v, v ∈ flowOut flows p → val v ≠ ⊥ := by
    intro p v hv
    rw [hf.mem_out] at hv
    obtain ⟨-, q, hq, -⟩ := hv
    exact hm v (hfl v (Dict.mem_keys_iff.2 ⟨_, hq⟩))
  have hsum : ∀ p, sumSkipNaN val (b.partOf p) =
      sumSkipNaN val (a.partOf p) - sumSkipNaN val (flowOut flows p) + sumSkipNaN val (flowIn flows p) :=
    fun p => sum_partOf_flow ha hs hf p _
  have hkey : ∀ p ∈ flows.keys, ∃ x, d.get? p = some x ∧ d'.get? p = some (g x (flowIn flows p) (flowOut flows p)) := by
    intro p hp
    obtain ⟨e, he, rfl⟩ := List.mem_map.1 hp
    obtain ⟨y, hy, hy'⟩ := k1 e he
    rw [Py.bind_eq_ok] at hy
    obtain ⟨x, hx, hy⟩ := hy
    rw [Py.pure_eq_ok] at hy
    rw [Dict.get_eq_ok_iff] at hx
    obtain ⟨f1, f2⟩ := flow_entry hf.wf he
    exact ⟨x, hx, by rw [hy', ← hy, f1, f2]⟩
  have hmem : ∀ p, p ∈ d'.keys ↔ p ∈ d.keys := by
    intro p
    by_cases hp : p ∈ flows.keys
    · obtain ⟨x, h1, h2⟩ := hkey p hp
      rw [Dict.mem_keys_iff, Dict.mem_keys_iff, h1, h2]; simp
    · rw [Dict.mem_keys_iff, Dict.mem_keys_iff, k2 p hp]
  refine ⟨?_, ?_, ?_⟩
  · intro p x hx
    by_cases hp : p ∈ flows.keys
    · obtain ⟨y, h1, h2⟩ := hkey p hp
      rw [hx] at h2
      cases h2
      rw [d1 p y h1, hg _ _ _ (hfin p) (hfout p), hsum]
    · rw [k2 p hp] at hx
      rw [partOf_noflow ha hs hf hp]
      exact d1 p x hx
  · intro p v hv hb
    rw [hmem]
    by_cases hp : p ∈ flows.keys
    · obtain ⟨y, h1, -⟩ := hkey p hp
      exact Dict.mem_keys_iff.2 ⟨y, h1⟩
    · rw [partOf_noflow ha hs hf hp] at hv
      exact d2 p v hv hb
  · intro p hp
    rw [hs.keys]
    exact d3 p ((hmem p).1 hp)

/-- `Tally._update_tally` maps a right tally of the parent to a right tally of the child. -/
theorem tallyStep_ok {a b : Assignment V P} (ha : a.Coherent) {flips : Dict V P} {flows : Dict P (Flow V)}
    (hs : FlipSpec a flips b) (hf : FlowsSpec a.mapping flips flows) (val : V → Num) (moved moved' : V → Prop)
    (hmv : ∀ v, moved v → moved' v) (hfl : ∀ v ∈ flips.keys, moved' v)
    {d d' : Dict P Num} (hd : TallyOK val moved a d) (h : tallyStep val flows d = .ok d') :
    TallyOK val moved' b d' := by
  refine tally_step_ok ha hs hf val moved moved' hmv hfl
    (fun old i o => Num.sub old (sumOver val o) + sumOver val i) ?_ hd ?_
  · intro x i o hi ho
    rw [sumOver_eq hi, sumOver_eq ho, Num.sub_coe, ← WithBot.coe_add]
  · rw [← h]; unfold tallyStep; simp only [bind_assoc, pure_bind]

/-- Same for `DataTally`. -/
theorem dataTallyStep_ok {a b : Assignment V P} (ha : a.Coherent) {flips : Dict V P} {flows : Dict P (Flow V)}
    (hs : FlipSpec a flips b) (hf : FlowsSpec a.mapping flips flows) (val : V → Num) (moved moved' : V → Prop)
    (hmv : ∀ v, moved v → moved' v) (hfl : ∀ v ∈ flips.keys, moved' v)
    {d d' : Dict P Num} (hd : TallyOK val moved a d) (h : dataTallyStep val flows d = .ok d') :
    TallyOK val moved' b d' := by
  refine tally_step_ok ha hs hf val moved moved' hmv hfl
    (fun old i o => Num.sub (old + sumOver val i) (sumOver val o)) ?_ hd ?_
  · intro x i o hi ho
    rw [sumOver_eq hi, sumOver_eq ho, ← WithBot.coe_add, Num.sub_coe]
    congr 1; ring
  · rw [← h]; unfold dataTallyStep; simp only [bind_assoc, pure_bind]

theorem tallyStep_error {val : V → Num} {flows : Dict P (Flow V)} {d : Dict P Num} {err : PyErr}
    (h : tallyStep val flows d = .error err ∨ dataTallyStep val flows d = .error err) :
    ∃ p ∈ flows.keys, p ∉ d.keys := by
  have key : ∀ (g : Num → Flow V → Num), flows.entries.foldlM (fun (t : Dict P Num) e => do
      let y ← (do let old ← d.get e.1; return g old e.2)
      return t.set e.1 y) d = (.error err : Py _) → ∃ p ∈ flows.keys, p ∉ d.keys := by
    intro g h
    obtain ⟨e, he, h⟩ := foldlM_set_error (fun e : P × Flow V => do let old ← d.get e.1; return g old e.2) _ _ _ h
    rw [Py.bind_eq_error] at h
    rcases h with h | ⟨_, _, h⟩
    · exact ⟨e.1, List.mem_map.2 ⟨e, he, rfl⟩, Dict.get?_eq_none_iff.1 (Dict.get_eq_error_iff.1 h).1⟩
    · simp at h
  rcases h with h | h
  · refine key (fun old f => Num.sub old (sumOver val f.out) + sumOver val f.inn) ?_
    rw [← h]; unfold tallyStep; simp only [bind_assoc, pure_bind]
  · refine key (fun old f => Num.sub (old + sumOver val f.inn) (sumOver val f.out)) ?_
    rw [← h]; unfold dataTallyStep; simp only [bind_assoc, pure_bind]

/-! ### exterior boundaries -/

theorem extSet_fold {m : Dict V P} (l : List V) (d : Dict P (Finset V)) (hl : ∀ v ∈ l, v ∈ m.keys) :
    ∃ d', l.foldlM (fun (d : Dict P (Finset V)) v => do
        let p ← m.get v
        return d.modifyD p ∅ (insert v)) d = (.ok d' : Py _) ∧
      ∀ p v, v ∈ (d'.get? p).getD ∅ ↔ v ∈ (d.get? p).getD ∅ ∨ (v ∈ l ∧ m.get? v = some p) := by
  induction l generalizing d with
  | nil => exact ⟨d, rfl, by simp⟩
  | cons x xs ih =>
    obtain ⟨p, hp⟩ := Dict.mem_keys_iff.1 (hl x List.mem_cons_self)
    obtain ⟨d', h1, h2⟩ := ih (d.modifyD p ∅ (insert x)) (fun e he => hl e (List.mem_cons_of_mem _ he))
    refine ⟨d', ?_, ?_⟩
    · rw [List.foldlM_cons]; simp only [Dict.get, hp]; exact h1
    · intro r v
      rw [h2, Dict.get?_modifyD, List.mem_cons]
      by_cases hr : r = p
      · subst hr
        simp only [if_true, Option.getD_some, Finset.mem_insert]
        by_cases hx : v = x
        · subst hx; simp [hp]
        · simp [hx]
      · rw [if_neg hr]
        by_cases hx : v = x
        · subst hx
          have : ¬ p = r := fun h => hr h.symm
          simp [hp, this]
        · simp [hx]

theorem ext_fold {m : Dict V P} (w : V → ℚ) (l : List V) (d : Dict P ℚ) (hl : ∀ v ∈ l, v ∈ m.keys) :
    ∃ d', l.foldlM (fun (d : Dict P ℚ) v => do
        let p ← m.get v
        return d.modifyD p 0 (· + w v)) d = (.ok d' : Py _) ∧
      ∀ p, (d'.get? p).getD 0 = (d.get? p).getD 0 + ((l.filter (fun v => m.get? v = some p)).map w).sum := by
  induction l generalizing d with
  | nil => exact ⟨d, rfl, by simp⟩
  | cons x xs ih =>
    obtain ⟨p, hp⟩ := Dict.mem_keys_iff.1 (hl x List.mem_cons_self)
    obtain ⟨d', h1, h2⟩ := ih (d.modifyD p 0 (· + w x)) (fun e he => hl e (List.mem_cons_of_mem _ he))
    refine ⟨d', ?_, ?_⟩
    · rw [List.foldlM_cons]; simp only [Dict.get, hp]; exact h1
    · intro r
      rw [h2, Dict.get?_modifyD, List.filter_cons, hp]
      by_cases hr : r = p
      · subst hr
        simp only [if_true, Option.getD_some, decide_true, List.map_cons, List.sum_cons]
        ring
      · have : ¬ p = r := fun h => hr h.symm
        simp [hr, this]

theorem extSetInit_ok {D : GraphData V} {a : Assignment V P} (ha : a.Coherent) (hc : a.Covers D.graph.nodes) :
    ∃ d, extSetInit (boundaryNodesInit D) a.mapping = .ok d ∧
      ∀ p, (d.get? p).getD ∅ = (a.partOf p).filter (fun v => D.boundaryNode v) := by
  obtain ⟨d, h1, h2⟩ := extSet_fold (m := a.mapping) (iter (boundaryNodesInit D)) Dict.empty (by
    intro v hv
    rw [mem_iter, boundaryNodesInit, Finset.mem_filter] at hv
    exact (hc v).2 hv.1)
  refine ⟨d, h1, ?_⟩
  intro p
  ext v
  rw [h2, mem_iter, boundaryNodesInit, Finset.mem_filter, Finset.mem_filter, ha.mem_partOf]
  simp only [Dict.get?_empty, Option.getD_none, Finset.notMem_empty, false_or]
  constructor
  · rintro ⟨⟨_, h⟩, h'⟩; exact ⟨h', h⟩
  · rintro ⟨h', h⟩; exact ⟨⟨(hc v).1 (Dict.mem_keys_iff.2 ⟨p, h'⟩), h⟩, h'⟩

theorem extInit_ok {D : GraphData V} {a : Assignment V P} (ha : a.Coherent) (hc : a.Covers D.graph.nodes) :
    ∃ d, extInit D (boundaryNodesInit D) a.mapping = .ok d ∧
      ∀ p, (d.get? p).getD 0 = ((a.partOf p).filter (fun v => D.boundaryNode v)).sum D.boundaryPerim := by
  obtain ⟨d, h1, h2⟩ := ext_fold (m := a.mapping) D.boundaryPerim (iter (boundaryNodesInit D)) Dict.empty (by
    intro v hv
    rw [mem_iter, boundaryNodesInit, Finset.mem_filter] at hv
    exact (hc v).2 hv.1)
  refine ⟨d, h1, ?_⟩
  intro p
  rw [h2]
  simp only [Dict.get?_empty, Option.getD_none, zero_add]
  rw [← List.sum_toFinset]
  · congr 1
    ext v
    rw [List.mem_toFinset, List.mem_filter, mem_iter, boundaryNodesInit, Finset.mem_filter, Finset.mem_filter,
      ha.mem_partOf, decide_eq_true_eq]
    constructor
    · rintro ⟨⟨_, h⟩, h'⟩; exact ⟨h', h⟩
    · rintro ⟨h', h⟩; exact ⟨⟨(hc v).1 (Dict.mem_keys_iff.2 ⟨p, h'⟩), h⟩, h'⟩
  · exact (nodup_iter _).filter _

theorem filter_partOf_flow {a b : Assignment V P} (ha : a.Coherent) {flips : Dict V P} {flows : Dict P (Flow V)}
    (hs : FlipSpec a flips b) (hf : FlowsSpec a.mapping flips flows) (p : P) {D : GraphData V}
    (hc : b.Covers D.graph.nodes) :
    (b.partOf p).filter (fun v => D.boundaryNode v) =
      extSetPart (boundaryNodesInit D) ((a.partOf p).filter (fun v => D.boundaryNode v))
        (flowIn flows p) (flowOut flows p) := by
  obtain ⟨h1, h2, h3⟩ := partOf_flow ha hs hf p
  ext v
  simp only [Finset.mem_filter, extSetPart, boundaryNodesInit, Finset.mem_sdiff, Finset.mem_union, Finset.mem_inter]
  have hb := hs.coherent.mem_partOf p v
  have hn : v ∈ b.partOf p → v ∈ D.graph.nodes := fun h => (hc v).1 (Dict.mem_keys_iff.2 ⟨p, hb.1 h⟩)
  have k1 := h1 v
  have k2 := h2 v
  have k3 := h3 v
  tauto

theorem sum_filter_partOf_flow {a b : Assignment V P} (ha : a.Coherent) {flips : Dict V P} {flows : Dict P (Flow V)}
    (hs : FlipSpec a flips b) (hf : FlowsSpec a.mapping flips flows) (p : P) {D : GraphData V}
    (hca : a.Covers D.graph.nodes) (hc : b.Covers D.graph.nodes) :
    ((b.partOf p).filter (fun v => D.boundaryNode v)).sum D.boundaryPerim =
      extPart D (boundaryNodesInit D) (((a.partOf p).filter (fun v => D.boundaryNode v)).sum D.boundaryPerim)
        (flowIn flows p) (flowOut flows p) := by
  obtain ⟨h1, h2, h3⟩ := partOf_flow ha hs hf p
  unfold extPart
  have hb := fun v => hs.coherent.mem_partOf p v
  have hn : ∀ v, v ∈ b.partOf p → v ∈ D.graph.nodes := fun v h => (hc v).1 (Dict.mem_keys_iff.2 ⟨p, (hb v).1 h⟩)
  have hn' : ∀ v, v ∈ a.partOf p → v ∈ D.graph.nodes :=
    fun v h => (hca v).1 (Dict.mem_keys_iff.2 ⟨p, (ha.mem_partOf p v).1 h⟩)
  have := sum_flow (s := (a.partOf p).filter (fun v => D.boundaryNode v))
    (t := (b.partOf p).filter (fun v => D.boundaryNode v)) (i := flowIn flows p ∩ boundaryNodesInit D)
    (o := flowOut flows p ∩ boundaryNodesInit D) D.boundaryPerim ?_ ?_ ?_
  · rw [this]; ring
  · intro v
    simp only [Finset.mem_filter, boundaryNodesInit, Finset.mem_inter]
    have k1 := h1 v
    have k2 := h2 v
    have k3 := h3 v
    have k4 := hn v
    have k5 := hn' v
    tauto
  · intro v
    simp only [Finset.mem_filter, boundaryNodesInit, Finset.mem_inter]
    rintro ⟨k1, k2, k3⟩
    exact ⟨h2 v k1, k3⟩
  · intro v
    simp only [Finset.mem_filter, boundaryNodesInit, Finset.mem_inter]
    rintro ⟨k1, k2, k3⟩ ⟨k4, _⟩
    exact h3 v k1 k4

/-! ### cut edges by part, interior boundaries -/

theorem mem_cutsTouching_inc {G : Graph V} {m : Dict V P} {p : P} {e : V × V} :
    e ∈ cutsTouching G m p ↔ IsSortedEdge G e ∧ Inc m e p := mem_cutsTouching

theorem cutsTouching_flow {G : Graph V} {old new : Dict V P} {ef : Dict P (Flow (V × V))}
    (h : EdgeFlowsSpec G old new ef) (p : P) :
    cutsTouching G new p = (cutsTouching G old p ∪ flowIn ef p) \ flowOut ef p := by
  ext e
  simp only [Finset.mem_sdiff, Finset.mem_union, mem_cutsTouching_inc, h.mem_in, h.mem_out]
  tauto

theorem sum_cutsTouching_flow {D : GraphData V} {old new : Dict V P} {ef : Dict P (Flow (V × V))}
    (h : EdgeFlowsSpec D.graph old new ef) (p : P) :
    (cutsTouching D.graph new p).sum D.sharedPerim =
      intPart D ((cutsTouching D.graph old p).sum D.sharedPerim) (flowIn ef p) (flowOut ef p) := by
  unfold intPart
  have := sum_flow (s := cutsTouching D.graph old p) (t := cutsTouching D.graph new p) (i := flowIn ef p)
    (o := flowOut ef p) D.sharedPerim ?_ ?_ ?_
  · rw [this]; ring
  · intro e
    simp only [mem_cutsTouching_inc, h.mem_in, h.mem_out]
    tauto
  · intro e
    simp only [mem_cutsTouching_inc, h.mem_out]
    tauto
  · intro e
    simp only [mem_cutsTouching_inc, h.mem_in]
    tauto

/-! ### counties -/

theorem seenParts_ok {m : Dict V P} (l : List V) (hl : ∀ v ∈ l, v ∈ m.keys) :
    ∃ s, seenParts m l = .ok s ∧ ∀ p, p ∈ s ↔ ∃ v ∈ l, m.get? v = some p := by
  unfold seenParts
  have : ∀ (s0 : Finset P), ∃ s, l.foldlM (fun (s : Finset P) v => do
      let p ← m.get v; return insert p s) s0 = (.ok s : Py _) ∧
      ∀ p, p ∈ s ↔ p ∈ s0 ∨ ∃ v ∈ l, m.get? v = some p := by
    induction l with
    | nil => intro s0; exact ⟨s0, rfl, by simp⟩
    | cons x xs ih =>
      intro s0
      obtain ⟨p, hp⟩ := Dict.mem_keys_iff.1 (hl x List.mem_cons_self)
      obtain ⟨s, h1, h2⟩ := ih (fun v hv => hl v (List.mem_cons_of_mem _ hv)) (insert p s0)
      refine ⟨s, ?_, ?_⟩
      · rw [List.foldlM_cons]; simp only [Dict.get, hp]; exact h1
      · intro q
        rw [h2]
        simp only [Finset.mem_insert, List.mem_cons, exists_eq_or_imp, hp, Option.some.injEq, eq_comm (a := p)]
        tauto
  obtain ⟨s, h1, h2⟩ := this ∅
  exact ⟨s, h1, by simpa using h2⟩

theorem countySplitsInit_fold {m : Dict V P} {county : V → String} (l : List V) (hl : ∀ v ∈ l, v ∈ m.keys)
    (d : Dict String (CountyInfo V P))
    (hd : d.WF) (hsp : ∀ c i, d.get? c = some i → (i.split = .notSplit ↔ i.contains.card ≤ 1) ∧ i.split ≠ .newSplit) :
    ∃ d', l.foldlM (fun (d : Dict String (CountyInfo V P)) v => do
        let part ← m.get v
        let old := (d.get? (county v)).getD ⟨.notSplit, [], ∅⟩
        let seen := insert part old.contains
        let split := if seen.card > 1 then .oldSplit else old.split
        return d.set (county v) ⟨split, old.nodes ++ [v], seen⟩) d = (.ok d' : Py _) ∧ d'.WF ∧
      (∀ c i, d'.get? c = some i → (i.split = .notSplit ↔ i.contains.card ≤ 1) ∧ i.split ≠ .newSplit) ∧
      (∀ c, c ∈ d'.keys ↔ c ∈ d.keys ∨ ∃ v ∈ l, county v = c) ∧
      (∀ c v, (∃ i, d'.get? c = some i ∧ v ∈ i.nodes) ↔
        (∃ i, d.get? c = some i ∧ v ∈ i.nodes) ∨ (v ∈ l ∧ county v = c)) ∧
      (∀ c p, (∃ i, d'.get? c = some i ∧ p ∈ i.contains) ↔
        (∃ i, d.get? c = some i ∧ p ∈ i.contains) ∨ ∃ v ∈ l, county v = c ∧ m.get? v = some p) := by
  induction l generalizing d with
  | nil => exact ⟨d, rfl, hd, hsp, by simp, by simp, by simp⟩
  | cons x xs ih =>
    obtain ⟨p, hp⟩ := Dict.mem_keys_iff.1 (hl x List.mem_cons_self)
    set old := (d.get? (county x)).getD ⟨.notSplit, [], ∅⟩ with hold
    have hold' : (old.split = .notSplit ↔ old.contains.card ≤ 1) ∧ old.split ≠ .newSplit := by
      rw [hold]
      rcases h : d.get? (county x) with _ | i
      · simp
      · exact hsp _ i h
    obtain ⟨d', h1, h2, h3, h4, h5, h6⟩ := ih (fun v hv => hl v (List.mem_cons_of_mem _ hv))
      (d.set (county x) ⟨if (insert p old.contains).card > 1 then .oldSplit else old.split, old.nodes ++ [x],
        insert p old.contains⟩) (hd.set _ _) (by
        intro c i hi
        rw [Dict.get?_set] at hi
        split at hi
        · cases hi
          simp only
          split
          · rename_i hgt
            simp; omega
          · rename_i hgt
            refine ⟨⟨fun _ => by omega, fun _ => hold'.1.2 ?_⟩, hold'.2⟩
            exact (Finset.card_le_card (Finset.subset_insert _ _)).trans (by omega)
        · exact hsp c i hi)
    refine ⟨d', ?_, h2, h3, ?_, ?_, ?_⟩
    · rw [List.foldlM_cons]; simp only [Dict.get, hp]; exact h1
    · intro c
      rw [h4, Dict.mem_keys_set]
      simp only [List.mem_cons, exists_eq_or_imp, eq_comm (a := c)]
      tauto
    · intro c v
      rw [h5]
      by_cases hc : c = county x
      · subst hc
        simp only [Dict.get?_set_self, Option.some.injEq, exists_eq_left', List.mem_append,
          List.mem_cons, List.not_mem_nil, or_false]
        have : v ∈ old.nodes ↔ ∃ i, d.get? (county x) = some i ∧ v ∈ i.nodes := by
          rw [hold]
          rcases h : d.get? (county x) with _ | i <;> simp
        rw [this]
        constructor
        · rintro ((h | rfl) | h)
          · exact Or.inl h
          · exact Or.inr ⟨Or.inl rfl, rfl⟩
          · exact Or.inr ⟨Or.inr h.1, h.2⟩
        · rintro (h | ⟨rfl | h, h'⟩)
          · exact Or.inl (Or.inl h)
          · exact Or.inl (Or.inr rfl)
          · exact Or.inr ⟨h, h'⟩
      · rw [Dict.get?_set_ne _ _ hc]
        apply or_congr_right
        simp only [List.mem_cons]
        constructor
        · rintro ⟨h, h'⟩; exact ⟨Or.inr h, h'⟩
        · rintro ⟨rfl | h, h'⟩
          · exact absurd h'.symm hc
          · exact ⟨h, h'⟩
    · intro c q
      rw [h6]
      by_cases hc : c = county x
      · subst hc
        simp only [Dict.get?_set_self, Option.some.injEq, exists_eq_left', Finset.mem_insert,
          List.mem_cons, exists_eq_or_imp, hp, true_and]
        have : q ∈ old.contains ↔ ∃ i, d.get? (county x) = some i ∧ q ∈ i.contains := by
          rw [hold]
          rcases h : d.get? (county x) with _ | i <;> simp
        rw [this, eq_comm (a := p), or_assoc]
        exact or_left_comm
      · rw [Dict.get?_set_ne _ _ hc]
        apply or_congr_right
        simp only [List.mem_cons, exists_eq_or_imp]
        constructor
        · intro h; exact Or.inr h
        · rintro (h | h)
          · exact absurd h.1.symm hc
          · exact h

theorem countySplitsInit_ok {nodes : Finset V} {county : V → String} {a : Assignment V P} (hc : a.Covers nodes) :
    ∃ d, countySplitsInit nodes county a.mapping = .ok d ∧ CountiesOK nodes county a d ∧
      ∀ c i, d.get? c = some i → i.split ≠ .newSplit := by
  obtain ⟨d, h1, h2, h3, h4, h5, h6⟩ := countySplitsInit_fold (m := a.mapping) (county := county) (iter nodes)
    (by intro v hv; rw [mem_iter] at hv; exact (hc v).2 hv) Dict.empty Dict.wf_empty (by simp)
  refine ⟨d, h1, ⟨h2, ?_, ?_, ?_, fun c i hi => (h3 c i hi).1⟩, fun c i hi => (h3 c i hi).2⟩
  · intro c; rw [h4]; simp
  · intro c i hi v
    have := h5 c v
    simpa [hi] using this
  · intro c i hi p
    have := h6 c p
    simpa [hi] using this

theorem countySplitsStep_fold {m : Dict V P} (l : List (String × CountyInfo V P)) (hl : (l.map (·.1)).Nodup)
    (hk : ∀ e ∈ l, ∀ v ∈ e.2.nodes, v ∈ m.keys) (d : Dict String (CountyInfo V P)) (hd : d.WF) :
    ∃ d', l.foldlM (fun (d : Dict String (CountyInfo V P)) e => do
        let seen ← seenParts m e.2.nodes
        let split := if seen.card > 1 then (if e.2.split ≠ .oldSplit then .newSplit else .oldSplit) else .notSplit
        return d.set e.1 ⟨split, e.2.nodes, seen⟩) d = (.ok d' : Py _) ∧ d'.WF ∧
      (∀ c, c ∉ l.map (·.1) → d'.get? c = d.get? c) ∧
      (∀ e ∈ l, ∃ seen : Finset P, (∀ p, p ∈ seen ↔ ∃ v ∈ e.2.nodes, m.get? v = some p) ∧
        d'.get? e.1 = some ⟨if seen.card > 1 then (if e.2.split ≠ .oldSplit then .newSplit else .oldSplit)
          else .notSplit, e.2.nodes, seen⟩) := by
  induction l generalizing d with
  | nil => exact ⟨d, rfl, hd, by simp, by simp⟩
  | cons x xs ih =>
    obtain ⟨seen, s1, s2⟩ := seenParts_ok x.2.nodes (hk x List.mem_cons_self)
    simp only [List.map_cons, List.nodup_cons] at hl
    obtain ⟨d', h1, h2, h3, h4⟩ := ih hl.2 (fun e he => hk e (List.mem_cons_of_mem _ he))
      (d.set x.1 ⟨if seen.card > 1 then (if x.2.split ≠ .oldSplit then .newSplit else .oldSplit) else .notSplit,
        x.2.nodes, seen⟩) (hd.set _ _)
    refine ⟨d', ?_, h2, ?_, ?_⟩
    · rw [List.foldlM_cons, s1]; exact h1
    · intro c hc
      simp only [List.map_cons, List.mem_cons, not_or] at hc
      rw [h3 c hc.2, Dict.get?_set_ne _ _ hc.1]
    · intro e he
      rcases List.mem_cons.1 he with rfl | he
      · exact ⟨seen, s2, by rw [h3 _ hl.1, Dict.get?_set_self]⟩
      · exact h4 e he

/-- `compute_county_splits` on a child: right, and the flags follow the parent's flags. -/
theorem countySplitsStep_ok {nodes : Finset V} {county : V → String} {a b : Assignment V P} (hc : b.Covers nodes)
    {d : Dict String (CountyInfo V P)} (hd : CountiesOK nodes county a d) :
    ∃ d', countySplitsStep b.mapping d = .ok d' ∧ CountiesOK nodes county b d' ∧
      (∀ c i', d'.get? c = some i' → ∃ i, d.get? c = some i ∧
        (i'.split = .newSplit ↔ 1 < i'.contains.card ∧ i.split ≠ .oldSplit)) := by
  obtain ⟨d', h1, h2, h3, h4⟩ := countySplitsStep_fold (m := b.mapping) d.entries hd.wf (by
    intro e he v hv
    have := (hd.nodes e.1 e.2 (Dict.get?_of_mem_entries hd.wf he) v).1 hv
    exact (hc v).2 this.1) Dict.empty Dict.wf_empty
  have hget : ∀ c i', d'.get? c = some i' → ∃ i, d.get? c = some i ∧ ∃ seen : Finset P,
      (∀ p, p ∈ seen ↔ ∃ v ∈ i.nodes, b.mapping.get? v = some p) ∧
      i' = ⟨if seen.card > 1 then (if i.split ≠ .oldSplit then .newSplit else .oldSplit)
          else .notSplit, i.nodes, seen⟩ := by
    intro c i' hi'
    by_cases hck : c ∈ d.keys
    · obtain ⟨i, hi⟩ := Dict.mem_keys_iff.1 hck
      obtain ⟨seen, s1, s2⟩ := h4 (c, i) (Dict.mem_entries_of_get? hi)
      simp only at s2
      rw [hi'] at s2
      exact ⟨i, hi, seen, s1, Option.some.inj s2⟩
    · rw [h3 c hck] at hi'; simp at hi'
  have hkeys : ∀ c, c ∈ d'.keys ↔ c ∈ d.keys := by
    intro c
    constructor
    · intro h
      obtain ⟨i', hi'⟩ := Dict.mem_keys_iff.1 h
      obtain ⟨i, hi, -⟩ := hget c i' hi'
      exact Dict.mem_keys_iff.2 ⟨i, hi⟩
    · intro h
      obtain ⟨i, hi⟩ := Dict.mem_keys_iff.1 h
      obtain ⟨seen, s1, s2⟩ := h4 (c, i) (Dict.mem_entries_of_get? hi)
      exact Dict.mem_keys_iff.2 ⟨_, s2⟩
  refine ⟨d', h1, ⟨h2, ?_, ?_, ?_, ?_⟩, ?_⟩
  · intro c; rw [hkeys, hd.keys]
  · intro c i' hi' v
    obtain ⟨i, hi, seen, -, rfl⟩ := hget c i' hi'
    exact hd.nodes c i hi v
  · intro c i' hi' p
    obtain ⟨i, hi, seen, s1, rfl⟩ := hget c i' hi'
    simp only
    rw [s1]
    constructor
    · rintro ⟨v, hv, hp⟩
      have := (hd.nodes c i hi v).1 hv
      exact ⟨v, this.1, this.2, hp⟩
    · rintro ⟨v, hv, hv', hp⟩
      exact ⟨v, (hd.nodes c i hi v).2 ⟨hv, hv'⟩, hp⟩
  · intro c i' hi'
    obtain ⟨i, hi, seen, s1, rfl⟩ := hget c i' hi'
    simp only
    split
    · split <;> simp <;> omega
    · simp; omega
  · intro c i' hi'
    obtain ⟨i, hi, seen, s1, rfl⟩ := hget c i' hi'
    refine ⟨i, hi, ?_⟩
    simp only
    split
    · split <;> simp_all
    · simp; omega

end GC

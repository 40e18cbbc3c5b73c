import Verif.Props.Bipartition

/-!
# Recursive tree partitions (C36, C37, C64)
-/

set_option linter.unusedSectionVars false
set_option autoImplicit false

namespace GC

variable {V : Type} [LinearOrder V] {S : Type} {P : Type} [DecidableEq P]

/-! ### What a bipartition method must satisfy -/

/-- the method returns nodes of the graph it is given -/
def MethodSub (method : Method V S) : Prop :=
  ∀ H t e o w A w', method H t e o w = (.ok (some A), w') → A ⊆ H.nodes

/-- the method returns nodes of the subgraphs it is given by the loop, where `I` is an invariant of the set of remaining nodes -/
def MethodSubI (I : Finset V → Prop) (G : Graph V) (method : Method V S) : Prop :=
  ∀ R t e o w A w', R ⊆ G.nodes → I R → method (G.subgraph R) t e o w = (.ok (some A), w') → A ⊆ R ∧ I (R \ A)

theorem MethodSub.toI {method : Method V S} (h : MethodSub method) (G : Graph V) : MethodSubI (fun _ => True) G method :=
  fun R t e o w A w' _ _ hm => ⟨fun v hv => (Finset.mem_inter.1 (h (G.subgraph R) t e o w A w' hm hv)).2, trivial⟩

/-- on connected graphs the method returns connected sets with connected complements -/
def MethodConn (method : Method V S) : Prop :=
  ∀ H t e o w A w', H.WF → ConnectedOn H H.nodes → method H t e o w = (.ok (some A), w') →
    ConnectedOn H A ∧ ConnectedOn H (H.nodes \ A)

/-- on connected graphs the method returns sets within the requested tolerance, with their complement for two-sided cuts -/
def MethodNear (pop : V → ℚ) (method : Method V S) : Prop :=
  ∀ H t e o w A w', H.WF → ConnectedOn H H.nodes → method H t e o w = (.ok (some A), w') →
    Near t e (popOf pop A) ∧ (o = false → Near t e (popOf pop (H.nodes \ A)))

/-- the population lies in `[target * (1 - eps), target * (1 + eps)]` -/
def PopOk (target eps x : ℚ) : Prop := target * (1 - eps) ≤ x ∧ x ≤ target * (1 + eps)

theorem near_iff_popOk {target eps x : ℚ} : Near target eps x ↔ PopOk target eps x := by
  unfold Near PopOk
  rw [abs_le]
  constructor
  · rintro ⟨h1, h2⟩; constructor <;> nlinarith
  · rintro ⟨h1, h2⟩; constructor <;> nlinarith

/-! ### One district -/

theorem assign_fold (pop : V → ℚ) (part : P) : ∀ (l : List V) (st : Dict V P × ℚ),
    (l.foldl (fun st v => (st.1.set v part, st.2 + pop v)) st).2 = st.2 + (l.map pop).sum ∧
    ∀ v, (l.foldl (fun st v => (st.1.set v part, st.2 + pop v)) st).1.get? v = if v ∈ l then some part else st.1.get? v := by
  intro l
  induction l with
  | nil => intro st; simp
  | cons a l ih =>
    intro st
    simp only [List.foldl_cons]
    obtain ⟨h1, h2⟩ := ih (st.1.set a part, st.2 + pop a)
    refine ⟨by rw [h1]; simp [add_assoc], ?_⟩
    intro v
    rw [h2]
    by_cases hv : v ∈ l
    · simp [hv]
    · by_cases hva : v = a
      · subst hva; simp [hv, Dict.get?_set_self]
      · simp [hv, hva, Dict.get?_set]

theorem assignPart_cases (pop : V → ℚ) (target eps : ℚ) (flips : Dict V P) (nodes : Finset V) (part : P) :
    (∃ f, assignPart pop target eps flips nodes part = .ok (f, popOf pop nodes) ∧ PopOk target eps (popOf pop nodes) ∧
      ∀ v, f.get? v = if v ∈ nodes then some part else flips.get? v) ∨
    (assignPart pop target eps flips nodes part = .error .populationBalanceError ∧ ¬ PopOk target eps (popOf pop nodes)) := by
  obtain ⟨h1, h2⟩ := assign_fold pop part (iter nodes) (flips, 0)
  have hs : ((iter nodes).foldl (fun st v => (st.1.set v part, st.2 + pop v)) (flips, (0 : ℚ))).2 = popOf pop nodes := by
    rw [h1, zero_add]
    exact init_totPop nodes ⟨∅, ∅⟩ (fun _ _ => none) pop 0 0
  unfold assignPart
  simp only
  have hc : checkPop target eps (popOf pop nodes) = true ↔ PopOk target eps (popOf pop nodes) := by
    simp [checkPop, PopOk]
  by_cases hb : checkPop target eps (popOf pop nodes) = true
  · left
    refine ⟨((iter nodes).foldl (fun st v => (st.1.set v part, st.2 + pop v)) (flips, (0 : ℚ))).1, ?_, hc.1 hb, ?_⟩
    · rw [hs, if_pos hb, ← hs]
    · intro v
      rw [h2]
      simp only [mem_iter]
  · right
    refine ⟨?_, fun h => hb (hc.2 h)⟩
    rw [hs, if_neg hb]

theorem assignPart_ok {pop : V → ℚ} {target eps : ℚ} {flips f : Dict V P} {nodes : Finset V} {part : P} {x : ℚ}
    (h : assignPart pop target eps flips nodes part = .ok (f, x)) :
    x = popOf pop nodes ∧ PopOk target eps (popOf pop nodes) ∧ ∀ v, f.get? v = if v ∈ nodes then some part else flips.get? v := by
  rcases assignPart_cases pop target eps flips nodes part with ⟨f', h1, h2, h3⟩ | ⟨h1, _⟩
  · rw [h] at h1
    cases h1
    exact ⟨rfl, h2, h3⟩
  · rw [h] at h1
    cases h1

theorem M.lift_eq_ok {α : Type} {x : Py α} {s s' : S} {a : α} (h : M.lift x s = (.ok a, s')) : x = .ok a ∧ s = s' := by
  unfold M.lift at h
  cases h
  exact ⟨rfl, rfl⟩

theorem notNone_eq_ok {x : Option (Finset V)} {A : Finset V} (h : notNone x = .ok A) : x = some A := by
  rcases x with _ | s
  · cases h
  · cases h; rfl

/-- the districts of `flips` restricted to a set -/
def districtIn (R : Finset V) (f : Dict V P) (p : P) : Finset V := R.filter (fun v => f.get? v = some p)

/-- what the loop achieves on the remaining nodes -/
structure Split (G : Graph V) (pop : V → ℚ) (target eps : ℚ) (conn : Prop) (parts : List P) (flips f : Dict V P)
    (R : Finset V) : Prop where
  frame : ∀ v, v ∉ R → f.get? v = flips.get? v
  cover : ∀ v ∈ R, ∃ p ∈ parts, f.get? v = some p
  pop : parts.Nodup → ∀ p ∈ parts, PopOk target eps (popOf pop (districtIn R f p))
  conn : conn → parts.Nodup → ∀ p ∈ parts, ConnectedOn G (districtIn R f p)

theorem method_on_subgraph {G : Graph V} {R A : Finset V} (hR : R ⊆ G.nodes) :
    (G.subgraph R).nodes = R ∧ (A ⊆ R → (ConnectedOn (G.subgraph R) A ↔ ConnectedOn G A)) := by
  refine ⟨Finset.inter_eq_right.2 hR, fun hA => ?_⟩
  apply connectedOn_congr
  intro u hu v hv
  rw [Graph.subgraph_adj]
  simp [hA hu, hA hv]

theorem lastTwo_split {method : Method V S} {G : Graph V} {I : Finset V → Prop} (hsub : MethodSubI I G method) (hG : G.WF) {pop : V → ℚ} {target eps : ℚ} {p q : P}
    {flips f : Dict V P} {R : Finset V} (hR : R ⊆ G.nodes) (hI : I R) {w w' : S}
    (h : lastTwo method G pop target eps p q flips R w = (.ok f, w')) :
    Split G pop target eps (MethodConn method ∧ ConnectedOn G R) [p, q] flips f R := by
  unfold lastTwo at h
  obtain ⟨r, w1, h1, h⟩ := M.bind_eq_ok h
  obtain ⟨A, w2, h2, h⟩ := M.bind_eq_ok h
  obtain ⟨⟨f1, x1⟩, w3, h3, h⟩ := M.bind_eq_ok h
  obtain ⟨⟨f2, x2⟩, w4, h4, h⟩ := M.bind_eq_ok h
  cases h
  have hr := notNone_eq_ok (M.lift_eq_ok h2).1
  subst hr
  obtain ⟨_, k1, k2⟩ := assignPart_ok (M.lift_eq_ok h3).1
  obtain ⟨_, k3, k4⟩ := assignPart_ok (M.lift_eq_ok h4).1
  obtain ⟨hn, hc⟩ := method_on_subgraph (G := G) hR (A := A)
  obtain ⟨_, hc'⟩ := method_on_subgraph (G := G) hR (A := R \ A)
  have hA : A ⊆ R := (hsub _ _ _ _ _ _ _ hR hI h1).1
  have hget : ∀ v, f.get? v = if v ∈ R \ A then some q else if v ∈ A then some p else flips.get? v := by
    intro v
    rw [k4, k2]
  have hp : p ≠ q → districtIn R f p = A := by
    intro hpq
    ext v
    simp only [districtIn, Finset.mem_filter, hget, Finset.mem_sdiff]
    constructor
    · rintro ⟨hv, h⟩
      by_contra hcon
      rw [if_pos ⟨hv, hcon⟩] at h
      exact hpq (Option.some.inj h).symm
    · intro hv
      exact ⟨hA hv, by simp [hv]⟩
  have hq : p ≠ q → districtIn R f q = R \ A := by
    intro hpq
    ext v
    simp only [districtIn, Finset.mem_filter, hget, Finset.mem_sdiff]
    constructor
    · rintro ⟨hv, h⟩
      refine ⟨hv, fun hva => ?_⟩
      rw [if_neg (by simp [hva]), if_pos hva] at h
      exact hpq (Option.some.inj h)
    · rintro ⟨hv, hva⟩
      exact ⟨hv, by simp [hv, hva]⟩
  refine ⟨?_, ?_, ?_, ?_⟩
  · intro v hv
    rw [hget, if_neg (by simp [hv]), if_neg (fun h => hv (hA h))]
  · intro v hv
    rw [hget]
    by_cases hva : v ∈ A
    · exact ⟨p, by simp, by simp [hva]⟩
    · exact ⟨q, by simp, by simp [hv, hva]⟩
  · intro hnd x hx
    have hpq : p ≠ q := by simpa using hnd
    simp only [List.mem_cons, List.not_mem_nil, or_false] at hx
    rcases hx with rfl | rfl
    · rw [hp hpq]; exact k1
    · rw [hq hpq]; exact k3
  · rintro ⟨hm, hconn⟩ hnd x hx
    have hpq : p ≠ q := by simpa using hnd
    have hcs := (connectedOn_subgraph hR).2 hconn
    obtain ⟨c1, c2⟩ := hm _ _ _ _ _ _ _ (hG.subgraph R) hcs h1
    rw [hn] at c2
    simp only [List.mem_cons, List.not_mem_nil, or_false] at hx
    rcases hx with rfl | rfl
    · rw [hp hpq]; exact (hc hA).1 c1
    · rw [hq hpq]; exact (hc' Finset.sdiff_subset).1 c2

theorem recursiveLoop_cons {method : Method V S} {G : Graph V} {pop : V → ℚ} {target eps : ℚ} {part p q : P} {rest : List P}
    {flips : Dict V P} {R : Finset V} {debt : ℚ} :
    recursiveLoop method G pop target eps (part :: p :: q :: rest) flips R debt = (do
      let (newTarget, newEps) ← M.lift (debtTarget target eps debt)
      let r ← method (G.subgraph R) newTarget newEps true
      let nodes ← M.lift (notNone r)
      let (flips, partPop) ← M.lift (assignPart pop target eps flips nodes part)
      recursiveLoop method G pop target eps (p :: q :: rest) flips (R \ nodes) (debt + (partPop - target))) := rfl

theorem recursiveLoop_split {method : Method V S} {G : Graph V} {I : Finset V → Prop} (hsub : MethodSubI I G method) (hG : G.WF) {pop : V → ℚ}
    {target eps : ℚ} : ∀ (parts : List P) (flips f : Dict V P) (R : Finset V) (debt : ℚ) (w w' : S), R ⊆ G.nodes → I R →
    recursiveLoop method G pop target eps parts flips R debt w = (.ok f, w') →
    Split G pop target eps (MethodConn method ∧ ConnectedOn G R) parts flips f R := by
  intro parts
  induction parts with
  | nil => intro flips f R debt w w' _ _ h; cases h
  | cons part rest ih =>
    intro flips f R debt w w' hR hI h
    rcases rest with _ | ⟨p, rest⟩
    · cases h
    rcases rest with _ | ⟨q, rest⟩
    · exact lastTwo_split hsub hG hR hI h
    rw [recursiveLoop_cons] at h
    obtain ⟨⟨nt, ne⟩, w0, h0, g1⟩ := M.bind_eq_ok h
    obtain ⟨r, w1, h1, g2⟩ := M.bind_eq_ok g1
    obtain ⟨A, w2, h2, g3⟩ := M.bind_eq_ok g2
    obtain ⟨⟨f1, x1⟩, w3, h3, g4⟩ := M.bind_eq_ok g3
    simp only at h1 g4
    have hr := notNone_eq_ok (M.lift_eq_ok h2).1
    subst hr
    obtain ⟨_, k1, k2⟩ := assignPart_ok (M.lift_eq_ok h3).1
    obtain ⟨hn, hc⟩ := method_on_subgraph (G := G) hR (A := A)
    obtain ⟨_, hc'⟩ := method_on_subgraph (G := G) hR (A := R \ A)
    obtain ⟨hA, hI'⟩ := hsub _ _ _ _ _ _ _ hR hI h1
    have ih := ih f1 f (R \ A) _ w3 w' (Finset.sdiff_subset.trans hR) hI' g4
    have hfA : ∀ v ∈ A, f.get? v = some part := by
      intro v hv
      rw [ih.frame v (by simp [hv]), k2, if_pos hv]
    have hpart : part ∉ p :: q :: rest → districtIn R f part = A := by
      intro hnp
      ext v
      simp only [districtIn, Finset.mem_filter]
      constructor
      · rintro ⟨hv, h⟩
        by_contra hcon
        obtain ⟨x, hx, e⟩ := ih.cover v (by simp [hv, hcon])
        rw [h] at e
        exact hnp (Option.some.inj e ▸ hx)
      · intro hv
        exact ⟨hA hv, hfA v hv⟩
    have hrest : ∀ x, x ≠ part → districtIn R f x = districtIn (R \ A) f x := by
      intro x hx
      ext v
      simp only [districtIn, Finset.mem_filter, Finset.mem_sdiff]
      constructor
      · rintro ⟨hv, h⟩
        refine ⟨⟨hv, fun hva => ?_⟩, h⟩
        rw [hfA v hva] at h
        exact hx (Option.some.inj h).symm
      · rintro ⟨⟨hv, _⟩, h⟩
        exact ⟨hv, h⟩
    refine ⟨?_, ?_, ?_, ?_⟩
    · intro v hv
      rw [ih.frame v (by simp [hv]), k2, if_neg (fun h => hv (hA h))]
    · intro v hv
      by_cases hva : v ∈ A
      · exact ⟨part, by simp, hfA v hva⟩
      · obtain ⟨x, hx, e⟩ := ih.cover v (by simp [hv, hva])
        exact ⟨x, List.mem_cons_of_mem _ hx, e⟩
    · intro hnd x hx
      rw [List.nodup_cons] at hnd
      rcases List.mem_cons.1 hx with rfl | hx
      · rw [hpart hnd.1]; exact k1
      · rw [hrest x (fun e => hnd.1 (e ▸ hx))]
        exact ih.pop hnd.2 x hx
    · rintro ⟨hm, hconn⟩ hnd x hx
      rw [List.nodup_cons] at hnd
      have hcs := (connectedOn_subgraph hR).2 hconn
      obtain ⟨c1, c2⟩ := hm _ _ _ _ _ _ _ (hG.subgraph R) hcs h1
      rw [hn] at c2
      rcases List.mem_cons.1 hx with rfl | hx
      · rw [hpart hnd.1]; exact (hc hA).1 c1
      · rw [hrest x (fun e => hnd.1 (e ▸ hx))]
        exact ih.conn ⟨hm, (hc' Finset.sdiff_subset).1 c2⟩ hnd.2 x hx

theorem districtIn_nodes (G : Graph V) {f : Dict V P} {p : P} (h : ∀ v, v ∉ G.nodes → f.get? v = none) (v : V) :
    v ∈ districtIn G.nodes f p ↔ f.get? v = some p := by
  simp only [districtIn, Finset.mem_filter]
  refine ⟨fun h => h.2, fun hv => ⟨?_, hv⟩⟩
  by_contra hcon
  rw [h v hcon] at hv
  cases hv

theorem recursive_tree_part_spec (method : Method V S) (G : Graph V) {I : Finset V → Prop} (hsub : MethodSubI I G method)
    (hI : I G.nodes) (hG : G.WF) (pop : V → ℚ)
    (target eps : ℚ) (parts : List P) (w w' : S) (f : Dict V P)
    (hret : recursiveTreePart method G parts pop target eps w = (.ok f, w')) :
    2 ≤ parts.length ∧
    (∀ v, v ∈ G.nodes ↔ ∃ p ∈ parts, f.get? v = some p) ∧ (∀ v, v ∉ G.nodes → f.get? v = none) ∧
    (parts.Nodup → ∀ p ∈ parts, ∃ D : Finset V, (∀ v, v ∈ D ↔ f.get? v = some p) ∧
      target * (1 - eps) ≤ ∑ v ∈ D, pop v ∧ ∑ v ∈ D, pop v ≤ target * (1 + eps) ∧
      (MethodConn method → ConnectedOn G G.nodes → ConnectedOn G D)) := by
  unfold recursiveTreePart at hret
  have hs := recursiveLoop_split hsub hG parts Dict.empty f G.nodes 0 w w' (Finset.Subset.refl _) hI hret
  have hout : ∀ v, v ∉ G.nodes → f.get? v = none := fun v hv => hs.frame v hv
  refine ⟨?_, ?_, hout, ?_⟩
  · rcases parts with _ | ⟨p, _ | ⟨q, rest⟩⟩
    · cases hret
    · cases hret
    · simp
  · intro v
    refine ⟨hs.cover v, ?_⟩
    rintro ⟨p, _, h⟩
    by_contra hcon
    rw [hout v hcon] at h
    cases h
  · intro hnd p hp
    refine ⟨districtIn G.nodes f p, districtIn_nodes G hout, (hs.pop hnd p hp).1, (hs.pop hnd p hp).2, ?_⟩
    intro hm hconn
    exact hs.conn ⟨hm, hconn⟩ hnd p hp

/-- **C36** Whenever `recursive_tree_part` returns: exactly the nodes of the graph are assigned, each to one of the parts;
every part has a population within the bounds; and if the method returns connected bipartitions and the graph is
connected, every part is connected.  For every graph, method, world and list of distinct parts (the first claim for every
list). -/
theorem C36_recursive_tree_part (method : Method V S) (hsub : MethodSub method) (G : Graph V) (hG : G.WF) (pop : V → ℚ)
    (target eps : ℚ) (parts : List P) (w w' : S) (f : Dict V P)
    (hret : recursiveTreePart method G parts pop target eps w = (.ok f, w')) :
    2 ≤ parts.length ∧
    (∀ v, v ∈ G.nodes ↔ ∃ p ∈ parts, f.get? v = some p) ∧ (∀ v, v ∉ G.nodes → f.get? v = none) ∧
    (parts.Nodup → ∀ p ∈ parts, ∃ D : Finset V, (∀ v, v ∈ D ↔ f.get? v = some p) ∧
      target * (1 - eps) ≤ ∑ v ∈ D, pop v ∧ ∑ v ∈ D, pop v ≤ target * (1 + eps) ∧
      (MethodConn method → ConnectedOn G G.nodes → ConnectedOn G D)) :=
  recursive_tree_part_spec method G (hsub.toI G) trivial hG pop target eps parts w w' f hret

/-- **C37** Whenever `epsilon_tree_bipartition` returns: there are two parts, exactly the nodes of the graph are assigned, each
to one of the two; both populations are within the bounds; and if the method returns connected bipartitions and the graph
is connected, both parts are connected. -/
theorem C37_epsilon_tree_bipartition (method : Method V S) (hsub : MethodSub method) (G : Graph V) (hG : G.WF) (pop : V → ℚ)
    (target eps : ℚ) (parts : List P) (w w' : S) (f : Dict V P)
    (hret : epsilonTreeBipartition method G parts pop target eps w = (.ok f, w')) :
    ∃ p q, parts = [p, q] ∧
    (∀ v, v ∈ G.nodes ↔ (f.get? v = some p ∨ f.get? v = some q)) ∧ (∀ v, v ∉ G.nodes → f.get? v = none) ∧
    (p ≠ q → ∀ x ∈ parts, ∃ D : Finset V, (∀ v, v ∈ D ↔ f.get? v = some x) ∧
      target * (1 - eps) ≤ ∑ v ∈ D, pop v ∧ ∑ v ∈ D, pop v ≤ target * (1 + eps) ∧
      (MethodConn method → ConnectedOn G G.nodes → ConnectedOn G D)) := by
  unfold epsilonTreeBipartition at hret
  rcases parts with _ | ⟨p, _ | ⟨q, _ | ⟨r, rest⟩⟩⟩
  · cases hret
  · cases hret
  · simp only at hret
    have hret' : recursiveTreePart method G [p, q] pop target eps w = (.ok f, w') := hret
    obtain ⟨_, h1, h2, h3⟩ := C36_recursive_tree_part method hsub G hG pop target eps [p, q] w w' f hret'
    refine ⟨p, q, rfl, ?_, h2, fun hpq => h3 (by simpa using hpq)⟩
    intro v
    rw [h1]
    simp
  · cases hret

/-! ### The running debt -/

theorem half_cancel {a b : ℚ} (hb : 0 < b) : a / (2 * b) * b = a / 2 := by field_simp

/-- The tolerance requested from the method in each round: a set within it has a population within the overall bounds and
keeps the debt within `eps * target`. -/
theorem debtTarget_ok {target eps debt : ℚ} (ht : 0 < target) (he : 0 ≤ eps) (he1 : eps < 1) (hd : |debt| ≤ eps * target) :
    ∃ nt ne, debtTarget target eps debt = .ok (nt, ne) ∧ 0 < nt ∧ 0 ≤ ne ∧
      ∀ x, Near nt ne x → PopOk target eps x ∧ |debt + (x - target)| ≤ eps * target := by
  rw [abs_le] at hd
  have het : eps * target < target := by nlinarith
  unfold debtTarget
  simp only
  rcases le_total 0 debt with h0 | h0
  · have e1 : max (target * (1 - eps)) (target * (1 - eps) - debt) = target * (1 - eps) := max_eq_left (by linarith)
    have e2 : min (target * (1 + eps)) (target * (1 + eps) - debt) = target * (1 + eps) - debt := min_eq_right (by linarith)
    rw [e1, e2]
    have hpos : 0 < (target * (1 - eps) + (target * (1 + eps) - debt)) / 2 := by nlinarith
    rw [if_neg (by linarith)]
    refine ⟨_, _, rfl, hpos, div_nonneg (by nlinarith) (by linarith), ?_⟩
    intro x hx
    unfold Near at hx
    rw [half_cancel hpos, abs_le] at hx
    unfold PopOk
    rw [abs_le]
    obtain ⟨h1, h2⟩ := hx
    refine ⟨⟨by linarith, by linarith⟩, by nlinarith, by nlinarith⟩
  · have e1 : max (target * (1 - eps)) (target * (1 - eps) - debt) = target * (1 - eps) - debt := max_eq_right (by linarith)
    have e2 : min (target * (1 + eps)) (target * (1 + eps) - debt) = target * (1 + eps) := min_eq_left (by linarith)
    rw [e1, e2]
    have hpos : 0 < (target * (1 - eps) - debt + target * (1 + eps)) / 2 := by nlinarith
    rw [if_neg (by linarith)]
    refine ⟨_, _, rfl, hpos, div_nonneg (by nlinarith) (by linarith), ?_⟩
    intro x hx
    unfold Near at hx
    rw [half_cancel hpos, abs_le] at hx
    unfold PopOk
    rw [abs_le]
    obtain ⟨h1, h2⟩ := hx
    refine ⟨⟨by linarith, by linarith⟩, by nlinarith, by nlinarith⟩

/-- the method raises neither of the two errors itself -/
def MethodQuiet (method : Method V S) : Prop :=
  ∀ H t e o w, (method H t e o w).1 ≠ .error .populationBalanceError ∧ (method H t e o w).1 ≠ .error .zeroDivision

/-- the result is not one of the two errors -/
def Quiet {α : Type} (r : Py α) : Prop := r ≠ .error .populationBalanceError ∧ r ≠ .error .zeroDivision

theorem Quiet.bind {α β : Type} {m : M S α} {g : α → M S β} {s : S} (h1 : Quiet (m s).1)
    (h2 : ∀ a s', m s = (.ok a, s') → Quiet (g a s').1) : Quiet ((m >>= g) s).1 := by
  rcases hm : m s with ⟨e | a, s'⟩
  · rw [M.bind_error hm]
    rw [hm] at h1
    refine ⟨fun h => h1.1 ?_, fun h => h1.2 ?_⟩ <;> simpa using h
  · rw [M.bind_ok hm]
    exact h2 a s' hm

theorem recursiveLoop_quiet {method : Method V S} {G : Graph V} (hG : G.WF) {pop : V → ℚ} {target eps : ℚ}
    (ht : 0 < target) (he : 0 ≤ eps) (he1 : eps < 1)
    (hconn : MethodConn method) (hnear : MethodNear pop method) (hq : MethodQuiet method) :
    ∀ (parts : List P) (flips : Dict V P) (R : Finset V) (debt : ℚ) (w : S), R ⊆ G.nodes → ConnectedOn G R →
      |debt| ≤ eps * target → Quiet (recursiveLoop method G pop target eps parts flips R debt w).1 := by
  have hlift : ∀ {α : Type} (x : Py α) (s : S), Quiet x → Quiet (M.lift x s).1 := fun x s h => h
  have hnn : ∀ x : Option (Finset V), Quiet (notNone x) := by
    intro x
    rcases x with _ | x <;> exact ⟨by simp [notNone], by simp [notNone]⟩
  have hasg : ∀ (flips : Dict V P) (A : Finset V) (p : P), PopOk target eps (popOf pop A) →
      Quiet (assignPart pop target eps flips A p) := by
    intro flips A p h
    rcases assignPart_cases pop target eps flips A p with ⟨f, h1, _⟩ | ⟨_, h2⟩
    · rw [h1]; exact ⟨by simp, by simp⟩
    · exact absurd h h2
  intro parts
  induction parts with
  | nil => intros; exact ⟨by simp [recursiveLoop, M.raise], by simp [recursiveLoop, M.raise]⟩
  | cons part rest ih =>
    intro flips R debt w hR hcR hd
    have hcs := (connectedOn_subgraph hR).2 hcR
    obtain ⟨hn, _⟩ := method_on_subgraph (G := G) hR (A := R)
    rcases rest with _ | ⟨p, rest⟩
    · exact ⟨by simp [recursiveLoop, M.raise], by simp [recursiveLoop, M.raise]⟩
    rcases rest with _ | ⟨q, rest⟩
    · show Quiet (lastTwo method G pop target eps part p flips R w).1
      unfold lastTwo
      refine Quiet.bind (hq _ _ _ _ _) ?_
      intro r w1 h1
      refine Quiet.bind (hlift _ _ (hnn r)) ?_
      intro A w2 h2
      have hr := notNone_eq_ok (M.lift_eq_ok h2).1
      subst hr
      obtain ⟨n1, n2⟩ := hnear _ _ _ _ _ _ _ (hG.subgraph R) hcs h1
      have n2 := n2 rfl
      rw [hn] at n2
      refine Quiet.bind (hlift _ _ (hasg _ _ _ (near_iff_popOk.1 n1))) ?_
      intro a w3 h3
      refine Quiet.bind (hlift _ _ (hasg _ _ _ (near_iff_popOk.1 n2))) ?_
      intro a w4 h4
      exact ⟨by simp [pure, M.pure], by simp [pure, M.pure]⟩
    · obtain ⟨nt, ne, e1, _, _, e2⟩ := debtTarget_ok ht he he1 hd
      rw [recursiveLoop_cons, e1]
      rw [M.bind_ok (show M.lift (S := S) (.ok (nt, ne)) w = (.ok (nt, ne), w) from rfl)]
      simp only
      refine Quiet.bind (hq _ _ _ _ _) ?_
      intro r w1 h1
      refine Quiet.bind (hlift _ _ (hnn r)) ?_
      intro A w2 h2
      have hr := notNone_eq_ok (M.lift_eq_ok h2).1
      subst hr
      obtain ⟨n1, _⟩ := hnear _ _ _ _ _ _ _ (hG.subgraph R) hcs h1
      obtain ⟨e3, e4⟩ := e2 _ n1
      refine Quiet.bind (hlift _ _ (hasg _ _ _ e3)) ?_
      rintro ⟨f1, x⟩ w3 h3
      obtain ⟨k1, _, _⟩ := assignPart_ok (M.lift_eq_ok h3).1
      subst k1
      obtain ⟨_, c2⟩ := hconn _ _ _ _ _ _ _ (hG.subgraph R) hcs h1
      rw [hn] at c2
      obtain ⟨_, hc'⟩ := method_on_subgraph (G := G) hR (A := R \ A)
      exact ih f1 (R \ A) _ w3 (Finset.sdiff_subset.trans hR) ((hc' Finset.sdiff_subset).1 c2) e4

/-- **C64** If the method returns connected bipartitions within the tolerances it is asked for, `recursive_tree_part` never
raises `PopulationBalanceError` (and never divides by zero): the corrections of the target by the running debt always ask
for sets that pass the test. -/
theorem C64_never_unbalanced (method : Method V S) (G : Graph V) (hG : G.WF) (hcG : ConnectedOn G G.nodes) (pop : V → ℚ)
    (target eps : ℚ) (ht : 0 < target) (he : 0 ≤ eps) (he1 : eps < 1)
    (hconn : MethodConn method) (hnear : MethodNear pop method) (hq : MethodQuiet method)
    (parts : List P) (w : S) :
    (recursiveTreePart method G parts pop target eps w).1 ≠ .error .populationBalanceError ∧
    (recursiveTreePart method G parts pop target eps w).1 ≠ .error .zeroDivision := by
  unfold recursiveTreePart
  exact recursiveLoop_quiet hG ht he he1 hconn hnear hq parts Dict.empty G.nodes 0 w (Finset.Subset.refl _) hcG
    (by simp; positivity)

theorem recursiveLoop_debt {method : Method V S} {G : Graph V} (hG : G.WF) {pop : V → ℚ} {target eps : ℚ}
    (ht : 0 < target) (he : 0 ≤ eps) (he1 : eps < 1)
    {I : Finset V → Prop} (hsub : MethodSubI I G method) (hconn : MethodConn method) (hnear : MethodNear pop method) :
    ∀ (parts : List P) (flips f : Dict V P) (R : Finset V) (debt : ℚ) (w w' : S), R ⊆ G.nodes → I R → ConnectedOn G R →
      |debt| ≤ eps * target → parts.Nodup → recursiveLoop method G pop target eps parts flips R debt w = (.ok f, w') →
      ∀ k, k + 2 ≤ parts.length →
        |debt + ((parts.take k).map (fun p => popOf pop (districtIn R f p) - target)).sum| ≤ eps * target := by
  intro parts
  induction parts with
  | nil => intro _ _ _ _ _ _ _ _ _ _ _ h; cases h
  | cons part rest ih =>
    intro flips f R debt w w' hR hI hcR hd hnd h k hk
    rcases k with _ | k
    · simpa using hd
    have hsplit := recursiveLoop_split hsub hG (part :: rest) flips f R debt w w' hR hI h
    rcases rest with _ | ⟨p, _ | ⟨q, rest⟩⟩
    · simp at hk
    · simp at hk
    obtain ⟨nt, ne, e1, _, _, e2⟩ := debtTarget_ok ht he he1 hd
    rw [recursiveLoop_cons, e1] at h
    rw [M.bind_ok (show M.lift (S := S) (.ok (nt, ne)) w = (.ok (nt, ne), w) from rfl)] at h
    obtain ⟨r, w1, h1, g2⟩ := M.bind_eq_ok h
    obtain ⟨A, w2, h2, g3⟩ := M.bind_eq_ok g2
    obtain ⟨⟨f1, x1⟩, w3, h3, g4⟩ := M.bind_eq_ok g3
    simp only at h1 g4
    have hr := notNone_eq_ok (M.lift_eq_ok h2).1
    subst hr
    obtain ⟨k1, _, k2⟩ := assignPart_ok (M.lift_eq_ok h3).1
    subst k1
    have hcs := (connectedOn_subgraph hR).2 hcR
    obtain ⟨hn, _⟩ := method_on_subgraph (G := G) hR (A := A)
    obtain ⟨_, hc'⟩ := method_on_subgraph (G := G) hR (A := R \ A)
    obtain ⟨hA, hI'⟩ := hsub _ _ _ _ _ _ _ hR hI h1
    obtain ⟨n1, _⟩ := hnear _ _ _ _ _ _ _ (hG.subgraph R) hcs h1
    obtain ⟨_, e4⟩ := e2 _ n1
    obtain ⟨_, c2⟩ := hconn _ _ _ _ _ _ _ (hG.subgraph R) hcs h1
    rw [hn] at c2
    rw [List.nodup_cons] at hnd
    have hsp := recursiveLoop_split hsub hG (p :: q :: rest) f1 f (R \ A) _ w3 w' (Finset.sdiff_subset.trans hR) hI' g4
    have ih := ih f1 f (R \ A) _ w3 w' (Finset.sdiff_subset.trans hR) hI' ((hc' Finset.sdiff_subset).1 c2) e4 hnd.2 g4 k
      (by simp at hk ⊢; omega)
    have hfA : ∀ v ∈ A, f.get? v = some part := by
      intro v hv
      rw [hsp.frame v (by simp [hv]), k2, if_pos hv]
    have hpart : districtIn R f part = A := by
      ext v
      simp only [districtIn, Finset.mem_filter]
      constructor
      · rintro ⟨hv, h⟩
        by_contra hcon
        obtain ⟨x, hx, e⟩ := hsp.cover v (by simp [hv, hcon])
        rw [h] at e
        exact hnd.1 (Option.some.inj e ▸ hx)
      · intro hv
        exact ⟨hA hv, hfA v hv⟩
    have hrest : ∀ x ∈ (p :: q :: rest).take k, popOf pop (districtIn R f x) - target = popOf pop (districtIn (R \ A) f x) - target := by
      intro x hx
      have hx : x ≠ part := fun e => hnd.1 (e ▸ List.mem_of_mem_take hx)
      congr 2
      ext v
      simp only [districtIn, Finset.mem_filter, Finset.mem_sdiff]
      constructor
      · rintro ⟨hv, h⟩
        refine ⟨⟨hv, fun hva => ?_⟩, h⟩
        rw [hfA v hva] at h
        exact hx (Option.some.inj h).symm
      · rintro ⟨⟨hv, _⟩, h⟩
        exact ⟨hv, h⟩
    rw [List.take_succ_cons, List.map_cons, List.sum_cons, hpart, List.map_congr_left hrest, ← add_assoc]
    exact ih

/-- **C64** The districts drawn so far are never more than `eps * target` people ahead of or behind `target` people each, so
that errors do not accumulate: for every prefix of the parts without the last two. -/
theorem C64_running_debt (method : Method V S) (G : Graph V) (hG : G.WF) (hcG : ConnectedOn G G.nodes) (pop : V → ℚ)
    (target eps : ℚ) (ht : 0 < target) (he : 0 ≤ eps) (he1 : eps < 1)
    {I : Finset V → Prop} (hsub : MethodSubI I G method) (hI : I G.nodes)
    (hconn : MethodConn method) (hnear : MethodNear pop method)
    (parts : List P) (hnd : parts.Nodup) (w w' : S) (f : Dict V P)
    (hret : recursiveTreePart method G parts pop target eps w = (.ok f, w')) (k : ℕ) (hk : k + 2 ≤ parts.length) :
    |((parts.take k).map (fun p => popOf pop (districtIn G.nodes f p) - target)).sum| ≤ eps * target := by
  unfold recursiveTreePart at hret
  have := recursiveLoop_debt hG ht he he1 hsub hconn hnear parts Dict.empty f G.nodes 0 w w' (Finset.Subset.refl _) hI hcG
    (by simp; positivity) hnd hret k hk
  simpa using this

/-! ### `bipartition_tree` as the method -/

/-- `bipartition_tree` as called by `recursive_tree_part` (gerrychain/tree.py:1027-1036): default arguments up to the given ones -/
def bipMethod {A : Type} [DecidableEq A] (R : Rand S) (spanFn : Graph V → M S (WTree V)) (nodeRepeats : ℕ) (maxAttempts : Option ℕ)
    (attr : String → V → Option A) (surcharge : Option (Dict String ℚ)) (allow : Bool) (fuel : ℕ) (pop : V → ℚ) : Method V S :=
  fun H t e o => do
    let A ← bipartitionTree ⟨spanFn, memoBalance R o, nodeRepeats, maxAttempts⟩ (fun _ => regionChoice R attr surcharge) allow fuel
      none H pop t e
    pure (some A)

theorem bipMethod_good {A : Type} [DecidableEq A] (R : Rand S) (hR : R.Valid) (spanFn : Graph V → M S (WTree V))
    (hspan : SpanOk spanFn) (nodeRepeats : ℕ) (maxAttempts : Option ℕ)
    (attr : String → V → Option A) (surcharge : Option (Dict String ℚ)) (allow : Bool) (fuel : ℕ) (pop : V → ℚ) :
    MethodConn (bipMethod R spanFn nodeRepeats maxAttempts attr surcharge allow fuel pop) ∧
    MethodNear pop (bipMethod R spanFn nodeRepeats maxAttempts attr surcharge allow fuel pop) ∧
    ∀ G : Graph V, G.WF → MethodSubI (ConnectedOn G) G (bipMethod R spanFn nodeRepeats maxAttempts attr surcharge allow fuel pop) := by
  have key : ∀ H t e o w X w', H.WF → ConnectedOn H H.nodes →
      bipMethod R spanFn nodeRepeats maxAttempts attr surcharge allow fuel pop H t e o w = (.ok (some X), w') →
      GoodBipartition H pop t e o X := by
    intro H t e o w X w' hH hc h
    unfold bipMethod at h
    obtain ⟨Y, w1, h1, h2⟩ := M.bind_eq_ok h
    cases h2
    exact C34_default R hR spanFn hspan nodeRepeats maxAttempts attr surcharge o allow fuel (memoBalance R) (Or.inl rfl) H hH hc
      pop t e w w' X h1
  refine ⟨?_, ?_, ?_⟩
  · intro H t e o w X w' hH hc h
    exact ⟨(key H t e o w X w' hH hc h).2.1, (key H t e o w X w' hH hc h).2.2.1⟩
  · intro H t e o w X w' hH hc h
    exact ⟨(key H t e o w X w' hH hc h).2.2.2.1, (key H t e o w X w' hH hc h).2.2.2.2⟩

  · intro G hG R t e o w X w' hR hI h
    obtain ⟨h1, h2, h3, _⟩ := key _ t e o w X w' (hG.subgraph R) ((connectedOn_subgraph hR).2 hI) h
    obtain ⟨hn, _⟩ := method_on_subgraph (G := G) hR (A := R)
    obtain ⟨_, hc'⟩ := method_on_subgraph (G := G) hR (A := R \ X)
    rw [hn] at h1 h3
    exact ⟨h1, (hc' Finset.sdiff_subset).1 h3⟩

/-- **C36** for `recursive_tree_part` with its default method `bipartition_tree` on a connected graph: whatever it returns is a
partition of the nodes into connected districts within the population bounds. -/
theorem C36_default {A : Type} [DecidableEq A] (R : Rand S) (hR : R.Valid) (spanFn : Graph V → M S (WTree V))
    (hspan : SpanOk spanFn) (nodeRepeats : ℕ) (maxAttempts : Option ℕ) (attr : String → V → Option A)
    (surcharge : Option (Dict String ℚ)) (allow : Bool) (fuel : ℕ) (G : Graph V) (hG : G.WF) (hcG : ConnectedOn G G.nodes)
    (pop : V → ℚ) (target eps : ℚ) (parts : List P) (hnd : parts.Nodup) (w w' : S) (f : Dict V P)
    (hret : recursiveTreePart (bipMethod R spanFn nodeRepeats maxAttempts attr surcharge allow fuel pop) G parts pop target eps w =
      (.ok f, w')) :
    (∀ v, v ∈ G.nodes ↔ ∃ p ∈ parts, f.get? v = some p) ∧
    ∀ p ∈ parts, ∃ D : Finset V, (∀ v, v ∈ D ↔ f.get? v = some p) ∧ ConnectedOn G D ∧
      target * (1 - eps) ≤ ∑ v ∈ D, pop v ∧ ∑ v ∈ D, pop v ≤ target * (1 + eps) := by
  obtain ⟨g1, g2, g3⟩ := bipMethod_good R hR spanFn hspan nodeRepeats maxAttempts attr surcharge allow fuel pop
  obtain ⟨_, h1, _, h3⟩ := recursive_tree_part_spec _ G (g3 G hG) hcG hG pop target eps parts w w' f hret
  refine ⟨h1, fun p hp => ?_⟩
  obtain ⟨D, k1, k2, k3, k4⟩ := h3 hnd p hp
  exact ⟨D, k1, k4 g1 hcG, k2, k3⟩

/-! ### Examples -/

/-- a path of six nodes of population 1, three parts: the tree is the graph -/
def exLine : Graph ℕ := ⟨{0, 1, 2, 3, 4, 5}, {(0, 1), (1, 2), (2, 3), (3, 4), (4, 5)}⟩

/-- The method that cuts off the nodes below a threshold computed from the target: connected and exact on intervals. -/
def thresholdMethod : Method ℕ (List ℕ) := fun H t _ _ =>
  pure (some ((H.nodes.filter (fun v => ((H.nodes.filter (· < v)).card : ℚ) < t))))

example : ((recursiveTreePart thresholdMethod exLine ["a", "b", "c"] (fun _ => 1) 2 0 []).1.map Dict.entries) =
    .ok [(0, "a"), (1, "a"), (2, "b"), (3, "b"), (4, "c"), (5, "c")] := by decide +kernel

example : MethodSub thresholdMethod := by
  intro H t e o w A w' h
  cases h
  exact Finset.filter_subset _ _

/-- `bipartition_tree` as the method, on the star with a tail: the two districts of C34's example -/
example : ((recursiveTreePart (bipMethod tapeRand (fun _ => pure ⟨exTree, fun _ _ => none⟩) 1 (some 3)
      (fun _ _ => (none : Option ℕ)) none false 10 exTreePop) exCyc ["a", "b"] exTreePop 4 0 [1]).1.map Dict.entries) =
    .ok [(4, "a"), (5, "a"), (0, "b"), (1, "b"), (2, "b"), (3, "b")] ∧
    ((epsilonTreeBipartition (bipMethod tapeRand (fun _ => pure ⟨exTree, fun _ _ => none⟩) 1 (some 3)
      (fun _ _ => (none : Option ℕ)) none false 10 exTreePop) exCyc ["a", "b"] exTreePop 4 0 [1]).1.map Dict.entries) =
    .ok [(4, "a"), (5, "a"), (0, "b"), (1, "b"), (2, "b"), (3, "b")] := by decide +kernel

/-- a method that returns unbalanced sets: the test of the loop rejects the result -/
example : (recursiveTreePart (fun H _ _ _ => pure (some (H.nodes.filter (· < 3))) : Method ℕ (List ℕ)) exLine ["a", "b", "c"]
    (fun _ => 1) 2 0 []).1 = .error .populationBalanceError := by decide +kernel

end GC

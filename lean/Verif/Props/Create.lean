import Verif.Model.Create
import Verif.Props.RecomChain
import Verif.Props.Assignment

/-!
# Making partitions (C81, C82)

C81: `from_random_assignment` gives a contiguous and balanced plan with exactly the requested districts, and so does every plan of a chain of
recombinations started there.  C82: the plan of a new partition is the one asked for, whatever the form of the argument.
-/

set_option linter.unusedSectionVars false
set_option autoImplicit false

namespace GC

variable {V P S X : Type} [LinearOrder V] [LinearOrder P]

/-! ### C82: the constructors -/

theorem collectNodes_aux {A : Type} (f : V → Option A) (l : List V) (d : Dict V A) (hd : d.WF) :
    (∀ v ∈ l, f v ≠ none) ∧ (∃ d', l.foldlM (fun d v => match f v with
        | some x => (.ok (d.set v x) : Py (Dict V A))
        | none => .error .keyError) d = .ok d' ∧ d'.WF ∧ ∀ v, d'.get? v = if v ∈ l then f v else d.get? v) ∨
    (∃ v ∈ l, f v = none) ∧ l.foldlM (fun d v => match f v with
        | some x => (.ok (d.set v x) : Py (Dict V A))
        | none => .error .keyError) d = .error .keyError := by
  induction l generalizing d with
  | nil => exact .inl ⟨by simp, d, rfl, hd, by simp⟩
  | cons u l ih =>
    rw [List.foldlM_cons]
    rcases hu : f u with _ | x
    · exact .inr ⟨⟨u, List.mem_cons_self, hu⟩, rfl⟩
    · rcases ih (d.set u x) (hd.set _ _) with ⟨h1, d', h2, h3, h4⟩ | ⟨⟨v, h1, h2⟩, h3⟩
      · refine .inl ⟨?_, d', h2, h3, fun v => ?_⟩
        · intro v hv
          rcases List.mem_cons.1 hv with rfl | hv
          · rw [hu]; simp
          · exact h1 v hv
        · rw [h4, Dict.get?_set]
          by_cases hv : v ∈ l
          · rw [if_pos hv, if_pos (List.mem_cons_of_mem _ hv)]
          · by_cases hvu : v = u
            · subst hvu; simp [hv, hu]
            · rw [if_neg hv, if_neg hvu, if_neg (by rw [List.mem_cons]; tauto)]
      · exact .inr ⟨⟨v, List.mem_cons_of_mem _ h1, h2⟩, h3⟩

theorem collectNodes_spec {A : Type} (f : V → Option A) (nodes : Finset V) :
    (∀ v ∈ nodes, f v ≠ none) ∧ (∃ d, collectNodes f nodes = .ok d ∧ d.WF ∧ ∀ v, d.get? v = if v ∈ nodes then f v else none) ∨
    (∃ v ∈ nodes, f v = none) ∧ collectNodes f nodes = .error .keyError := by
  rcases collectNodes_aux f (iter nodes) Dict.empty Dict.wf_empty with ⟨h1, d, h2, h3, h4⟩ | ⟨⟨v, h1, h2⟩, h3⟩
  · exact .inl ⟨fun v hv => h1 v (mem_iter.2 hv), d, h2, h3, fun v => by rw [h4]; simp⟩
  · exact .inr ⟨⟨v, mem_iter.1 h1, h2⟩, h3⟩

/-- `a` is the plan `m`: the districts are the nonempty fibres of `m` -/
structure GivesPlan (nodes : Finset V) (m : V → Option P) (a : Assignment V P) : Prop where
  coherent : a.Coherent
  mapping : ∀ v, a.mapping.get? v = if v ∈ nodes then m v else none
  covers : a.Covers nodes
  nonempty : ∀ p s, a.parts.get? p = some s → s.Nonempty
  labels : ∀ p, p ∈ a.parts.keys ↔ ∃ v ∈ nodes, m v = some p

theorem givesPlan_of_dict {nodes : Finset V} {d : Dict V P} (hd : d.WF) (hk : ∀ v, v ∈ d.keys ↔ v ∈ nodes) :
    ∃ a, Assignment.fromDict d = .ok a ∧ GivesPlan nodes d.get? a := by
  obtain ⟨a, h1, h2, h3, h4⟩ := fromDict_ok hd
  obtain ⟨a', h1', -, h5, h6⟩ := C01_from_dict d hd
  rw [h1] at h1'; cases h1'
  refine ⟨a, h1, h2, fun v => ?_, fun v => ?_, h6, fun p => ?_⟩
  · rw [h3]
    by_cases hv : v ∈ nodes
    · rw [if_pos hv]
    · rw [if_neg hv, Dict.get?_eq_none_iff, hk]
      exact hv
  · rw [← hk v, Dict.mem_keys_iff, Dict.mem_keys_iff]
    simp only [h3]
  · rw [h5, Dict.mem_values_iff hd]
    constructor
    · rintro ⟨v, hv⟩
      exact ⟨v, (hk v).1 (Dict.mem_keys_iff.2 ⟨p, hv⟩), hv⟩
    · rintro ⟨v, -, hv⟩
      exact ⟨v, hv⟩

/-- **C82** (dictionary) `Partition(graph, d)` succeeds exactly when the keys of `d` are the nodes of the graph, and then the plan is `d`; otherwise
`KeyError`. -/
theorem C82_dict (attr : String → V → Option P) (nodes : Finset V) (d : Dict V P) (hd : d.WF) :
    ((∀ v, v ∈ d.keys ↔ v ∈ nodes) → ∃ a, firstAssignment attr nodes (.dict d) = .ok a ∧ GivesPlan nodes d.get? a) ∧
    (¬ (∀ v, v ∈ d.keys ↔ v ∈ nodes) → firstAssignment attr nodes (.dict d) = .error .keyError) := by
  constructor
  · intro hk
    obtain ⟨a, h1, h2⟩ := givesPlan_of_dict hd hk
    refine ⟨a, ?_, h2⟩
    unfold firstAssignment getAssignment
    simp only [h1]
    refine if_neg (not_not.2 ?_)
    ext v
    rw [List.mem_toFinset]
    exact h2.covers v
  · intro hk
    obtain ⟨a, h1, h2, h3, -⟩ := fromDict_ok hd
    unfold firstAssignment getAssignment
    simp only [h1]
    refine if_pos fun he => hk fun v => ?_
    rw [← he, List.mem_toFinset, Dict.mem_keys_iff, Dict.mem_keys_iff]
    simp only [h3]

/-- **C82** (attribute) `Partition(graph, "name")` succeeds exactly when every node has the attribute, and then the plan is the attribute; otherwise
`KeyError`. -/
theorem C82_attribute (attr : String → V → Option P) (nodes : Finset V) (name : String) :
    ((∀ v ∈ nodes, attr name v ≠ none) → ∃ a, firstAssignment attr nodes (.attr name) = .ok a ∧ GivesPlan nodes (attr name) a) ∧
    ((∃ v ∈ nodes, attr name v = none) → firstAssignment attr nodes (.attr name) = .error .keyError) := by
  rcases collectNodes_spec (attr name) nodes with ⟨h1, d, h2, h3, h4⟩ | ⟨⟨v, h1, h2⟩, h3⟩
  · refine ⟨fun _ => ?_, fun ⟨v, hv, hn⟩ => absurd hn (h1 v hv)⟩
    have hk : ∀ v, v ∈ d.keys ↔ v ∈ nodes := by
      intro v
      rw [Dict.mem_keys_iff]
      simp only [h4]
      constructor
      · rintro ⟨x, hx⟩
        by_contra hn
        rw [if_neg hn] at hx
        cases hx
      · intro hv
        rw [if_pos hv]
        exact Option.ne_none_iff_exists'.1 (h1 v hv)
    obtain ⟨a, g1, g2⟩ := (C82_dict attr nodes d h3).1 hk
    refine ⟨a, ?_, ⟨g2.coherent, fun v => ?_, g2.covers, g2.nonempty, fun p => ?_⟩⟩
    · unfold firstAssignment getAssignment at g1 ⊢
      simp only [h2]
      exact g1
    · rw [g2.mapping, h4]
      split_ifs <;> rfl
    · rw [g2.labels]
      refine exists_congr fun v => and_congr_right fun hv => ?_
      rw [h4, if_pos hv]
  · refine ⟨fun hn => absurd h2 (hn v h1), fun _ => ?_⟩
    unfold firstAssignment getAssignment
    simp only [h3]
    rfl

/-- **C82 (wrong arguments)**: an attribute name without a graph, and anything that is neither a name, a dictionary nor an assignment, raise
`TypeError`; nothing else depends on whether a graph is given. -/
theorem C82_wrong_argument (attr : String → V → Option P) (nodes : Finset V) (name : String) (g : Option (Finset V)) (d : Dict V P) :
    getAssignment attr none (.attr name) = .error .typeError ∧ getAssignment attr g .other = .error .typeError ∧
    firstAssignment attr nodes .other = .error .typeError ∧ getAssignment attr g (.dict d) = getAssignment attr none (.dict d) :=
  ⟨rfl, rfl, rfl, rfl⟩

/-- **C82** (assignment of another partition) `Partition(graph, other.assignment)` is the same plan; its districts are the nonempty districts of the
other partition. -/
theorem C82_assignment_partial (attr : String → V → Option P) (nodes : Finset V) (b : Assignment V P) (hb : b.Coherent) (hc : b.Covers nodes) :
    ∃ a, firstAssignment attr nodes (.assignment b) = .ok a ∧ GivesPlan nodes b.mapping.get? a ∧
      ∀ p s, a.parts.get? p = some s ↔ b.parts.get? p = some s ∧ s.Nonempty := by
  obtain ⟨a, h1, h2⟩ := (C82_dict attr nodes b.mapping hb.mapping_wf).1 hc
  refine ⟨a, h1, h2, fun p s => ?_⟩
  have hm : ∀ v, a.mapping.get? v = b.mapping.get? v := by
    intro v
    rw [h2.mapping]
    by_cases hv : v ∈ nodes
    · rw [if_pos hv]
    · rw [if_neg hv, eq_comm, Dict.get?_eq_none_iff, hc]
      exact hv
  have hext : ∀ s t, a.parts.get? p = some s → b.parts.get? p = some t → s = t := by
    intro s t hs ht
    ext v
    rw [h2.coherent.agree p s hs, hb.agree p t ht, hm]
  constructor
  · intro hs
    obtain ⟨v, hv⟩ := h2.nonempty p s hs
    have hk := hb.complete v p (by rw [← hm]; exact (h2.coherent.agree p s hs v).1 hv)
    obtain ⟨t, ht⟩ := Dict.mem_keys_iff.1 hk
    rw [hext s t hs ht]
    exact ⟨ht, hext s t hs ht ▸ ⟨v, hv⟩⟩
  · rintro ⟨hs, v, hv⟩
    have hk := h2.coherent.complete v p (by rw [hm]; exact (hb.agree p s hs v).1 hv)
    obtain ⟨t, ht⟩ := Dict.mem_keys_iff.1 hk
    rw [ht, hext t s ht hs]

/-- **C82** A district that lost all its nodes is not a district of the partition made from the same assignment. -/
theorem C82_assignment_violation : ∃ a b : Assignment (Fin 2) (Fin 2), b.Coherent ∧ b.Covers Finset.univ ∧
    firstAssignment (fun _ _ => none) Finset.univ (.assignment b) = .ok a ∧ 1 ∈ b.parts.keys ∧ 1 ∉ a.parts.keys := by
  have hb : (⟨⟨[(0, {0, 1}), (1, ∅)]⟩, ⟨[(0, 0), (1, 0)]⟩⟩ : Assignment (Fin 2) (Fin 2)).Coherent :=
    ⟨by unfold Dict.WF; decide, by unfold Dict.WF; decide, by decide, by decide⟩
  have hc : (⟨⟨[(0, {0, 1}), (1, ∅)]⟩, ⟨[(0, 0), (1, 0)]⟩⟩ : Assignment (Fin 2) (Fin 2)).Covers Finset.univ := by
    unfold Assignment.Covers; decide
  obtain ⟨a, h1, h2, -⟩ := C82_assignment_partial (fun _ _ => none) Finset.univ _ hb hc
  refine ⟨a, _, hb, hc, h1, by decide, ?_⟩
  rw [h2.labels]
  decide

/-- **C82** (Districtr) `from_districtr_file`: `TypeError` when a node has no id, otherwise `KeyError` when the file has no district for an id, otherwise
every node is in the district of its id.  Ids of the file that no node has are ignored. -/
theorem C82_districtr (attr : String → V → Option P) (nodes : Finset V) (idOf : V → Option String) (file : Dict String P) :
    ((∃ v ∈ nodes, idOf v = none) → districtrAssignment attr nodes idOf file = .error .typeError) ∧
    ((∀ v ∈ nodes, idOf v ≠ none) → (∃ v ∈ nodes, ∃ i, idOf v = some i ∧ i ∉ file.keys) →
      districtrAssignment attr nodes idOf file = .error .keyError) ∧
    ((∀ v ∈ nodes, ∃ i, idOf v = some i ∧ i ∈ file.keys) →
      ∃ a, districtrAssignment attr nodes idOf file = .ok a ∧ GivesPlan nodes (fun v => (idOf v).bind file.get?) a) := by
  rcases collectNodes_spec idOf nodes with ⟨h1, d, h2, h3, h4⟩ | ⟨⟨v, h1, h2⟩, h3⟩
  · have hf : ∀ v ∈ nodes, ((d.get? v).bind file.get?) = (idOf v).bind file.get? := by
      intro v hv
      rw [h4, if_pos hv]
    have hd : districtrAssignment attr nodes idOf file =
        (collectNodes (fun v => (d.get? v).bind file.get?) nodes >>= fun e => firstAssignment attr nodes (.dict e)) := by
      unfold districtrAssignment
      simp only [h2]
      rfl
    refine ⟨fun ⟨v, hv, hn⟩ => absurd hn (h1 v hv), ?_, ?_⟩
    · rintro - ⟨v, hv, i, hi, hn⟩
      rcases collectNodes_spec (fun v => (d.get? v).bind file.get?) nodes with ⟨g1, -⟩ | ⟨-, g⟩
      · refine absurd ?_ (g1 v hv)
        rw [hf v hv, hi]
        exact Dict.get?_eq_none_iff.2 hn
      · rw [hd, g]
        rfl
    · intro hall
      have hval : ∀ v ∈ nodes, ∃ p, (idOf v).bind file.get? = some p := by
        intro v hv
        obtain ⟨i, hi, hk⟩ := hall v hv
        obtain ⟨p, hp⟩ := Dict.mem_keys_iff.1 hk
        exact ⟨p, by rw [hi]; exact hp⟩
      rcases collectNodes_spec (fun v => (d.get? v).bind file.get?) nodes with ⟨-, e, g2, g3, g4⟩ | ⟨⟨v, hv, g⟩, -⟩
      · have hk : ∀ v, v ∈ e.keys ↔ v ∈ nodes := by
          intro v
          rw [Dict.mem_keys_iff]
          simp only [g4]
          constructor
          · rintro ⟨x, hx⟩
            by_contra hn
            rw [if_neg hn] at hx
            cases hx
          · intro hv
            rw [if_pos hv, hf v hv]
            exact hval v hv
        obtain ⟨a, k1, k2⟩ := (C82_dict attr nodes e g3).1 hk
        refine ⟨a, ?_, ⟨k2.coherent, fun v => ?_, k2.covers, k2.nonempty, fun p => ?_⟩⟩
        · rw [hd, g2]
          exact k1
        · rw [k2.mapping, g4]
          by_cases hv : v ∈ nodes
          · rw [if_pos hv, if_pos hv, if_pos hv, hf v hv]
          · rw [if_neg hv, if_neg hv]
        · rw [k2.labels]
          refine exists_congr fun v => and_congr_right fun hv => ?_
          rw [g4, if_pos hv, hf v hv]
      · rw [hf v hv] at g
        obtain ⟨p, hp⟩ := hval v hv
        rw [hp] at g
        cases g
  · refine ⟨fun _ => ?_, fun hn => absurd h2 (hn v h1), fun hn => ?_⟩
    · unfold districtrAssignment
      simp only [h3]
      rfl
    · obtain ⟨i, hi, -⟩ := hn v h1
      rw [h2] at hi
      cases hi

/-! ### C81: random assignments -/

theorem recursiveLoop_wf {method : Method V S} {G : Graph V} {pop : V → ℚ} {target eps : ℚ} {parts : List P} {flips f : Dict V P} {rem : Finset V}
    {debt : ℚ} {w w' : S} (hf : flips.WF) (h : recursiveLoop method G pop target eps parts flips rem debt w = (.ok f, w')) : f.WF := by
  induction parts generalizing flips rem debt w with
  | nil => cases h
  | cons p rest ih =>
    rcases rest with _ | ⟨q, _ | ⟨r, rest⟩⟩
    · cases h
    · unfold recursiveLoop lastTwo at h
      obtain ⟨x, w1, -, h⟩ := M.bind_eq_ok h
      obtain ⟨nodes, w2, -, h⟩ := M.bind_eq_ok h
      obtain ⟨⟨f1, x1⟩, w3, h3, h⟩ := M.bind_eq_ok h
      obtain ⟨⟨f2, x2⟩, w4, h4, h⟩ := M.bind_eq_ok h
      cases h
      exact assignPart_wf (assignPart_wf hf (M.lift_eq_ok h3).1) (M.lift_eq_ok h4).1
    · unfold recursiveLoop at h
      obtain ⟨⟨t1, e1⟩, w1, -, h⟩ := M.bind_eq_ok h
      obtain ⟨x, w2, -, h⟩ := M.bind_eq_ok h
      obtain ⟨nodes, w3, -, h⟩ := M.bind_eq_ok h
      obtain ⟨⟨f1, x1⟩, w4, h4, h⟩ := M.bind_eq_ok h
      exact ih (assignPart_wf hf (M.lift_eq_ok h4).1) h

/-- what `from_random_assignment` returns, for every method -/
theorem fromRandom_ok {partFn : Graph V → List ℕ → (V → ℚ) → ℚ → ℚ → M X (Dict V ℕ)} {pop : V → ℚ} {n : ℤ} {eps : ℚ} {s s1 : World V ℕ X} {st : ℕ}
    (h : fromRandomAssignment partFn pop n eps s = (.ok st, s1)) :
    n ≠ 0 ∧ ∃ d F, partFn s.1.frame.data.graph (List.range n.toNat) pop ((∑ v ∈ s.1.frame.data.graph.nodes, pop v) / (n : ℚ)) eps s.2 = (.ok d, s1.2) ∧
      s.1.frame.create d = .ok F ∧ s1.1 = ⟨F, s.1.caches⟩ ∧ st = s.1.frame.objs.length := by
  unfold fromRandomAssignment at h
  obtain ⟨x, s2, h1, h⟩ := M.bind_eq_ok h
  obtain ⟨h1, rfl⟩ := M.lift_eq_ok h1
  by_cases hn : n = 0
  · rw [if_pos hn] at h1; cases h1
  rw [if_neg hn] at h1
  cases h1
  obtain ⟨d, s3, h2, h⟩ := M.bind_eq_ok h
  obtain ⟨h2, h3⟩ := M.onRest_eq h2
  unfold createObj at h
  rcases hF : s3.1.frame.create d with e | F <;> rw [hF] at h <;> cases h
  rw [h3] at hF ⊢
  exact ⟨hn, d, F, h2, hF, rfl, rfl⟩

/-- **C81** Whenever `from_random_assignment` with `recursive_tree_part` and `bipartition_tree` returns on a connected graph: at least two districts were
asked for, the partition is new, its districts are exactly those with the labels `0, …, n - 1`, they are connected and cover the graph, and each
population is within `eps` of the average.  Other partitions are as before. -/
theorem C81_from_random_assignment {A : Type} [DecidableEq A] (R : Rand X) (hR : R.Valid) (spanFn : Graph V → M X (WTree V)) (hspan : SpanOk spanFn)
    (nodeRepeats : ℕ) (maxAttempts : Option ℕ) (attr : String → V → Option A) (surcharge : Option (Dict String ℚ)) (allow : Bool) (fuel : ℕ)
    (pop : V → ℚ) (n : ℤ) (eps : ℚ) (s s1 : World V ℕ X) (hs : HeapInv s.1) (st : ℕ)
    (hconn : ConnectedOn s.1.frame.data.graph s.1.frame.data.graph.nodes)
    (h : fromRandomAssignment (recursiveTreePart (bipMethod R spanFn nodeRepeats maxAttempts attr surcharge allow fuel pop)) pop n eps s = (.ok st, s1)) :
    2 ≤ n ∧ HeapInv s1.1 ∧ Stable s.1.frame s1.1.frame ∧ s.1.frame.view st = none ∧
    ∃ v, s1.1.frame.view st = some v ∧ v.parent = none ∧ v.assignment.Coherent ∧ v.assignment.Covers s.1.frame.data.graph.nodes ∧
      ContiguousPlan s.1.frame.data.graph v.assignment ∧
      BalancedPlan pop ((∑ v ∈ s.1.frame.data.graph.nodes, pop v) / (n : ℚ)) eps v.assignment ∧
      (∀ k, k ∈ v.assignment.parts.keys ↔ (k : ℤ) < n) ∧ (v.assignment.parts.keys.length : ℤ) = n := by
  obtain ⟨hn, d, F, h1, h2, h3, rfl⟩ := fromRandom_ok h
  have hG := hs.frame.graph
  obtain ⟨g1, g2, g3⟩ := bipMethod_good R hR spanFn hspan nodeRepeats maxAttempts attr surcharge allow fuel pop
  obtain ⟨hlen, -⟩ := recursive_tree_part_spec _ _ (g3 _ hG) hconn hG pop _ eps _ _ _ d h1
  rw [List.length_range] at hlen
  obtain ⟨k1, k2⟩ := C36_default R hR spanFn hspan nodeRepeats maxAttempts attr surcharge allow fuel _ hG hconn pop _ eps _ List.nodup_range _ _ d h1
  have hd : d.WF := recursiveLoop_wf Dict.wf_empty h1
  obtain ⟨i1, i2⟩ := hs.frame.create hd h2
  obtain ⟨a, rfl, ha, hco, hcov, hm⟩ := create_ok hd h2
  obtain ⟨a', ha', -, hlab, -⟩ := C01_from_dict d hd
  rw [ha] at ha'; cases ha'
  have hkeys : ∀ k, k ∈ a.parts.keys ↔ (k : ℤ) < n := by
    intro k
    rw [hlab, Dict.mem_values_iff hd]
    constructor
    · rintro ⟨v, hv⟩
      have hvn : v ∈ s.1.frame.data.graph.nodes := by
        rw [← hcov v, Dict.mem_keys_iff]
        exact ⟨k, by rw [hm]; exact hv⟩
      obtain ⟨p, hp, hv'⟩ := (k1 v).1 hvn
      rw [hv] at hv'; cases hv'
      rw [List.mem_range] at hp
      omega
    · intro hk
      obtain ⟨D, m1, m2, -⟩ := k2 k (List.mem_range.2 (by omega))
      obtain ⟨v, hv⟩ := m2.1
      exact ⟨v, (m1 v).1 hv⟩
  refine ⟨by omega, ?_, ?_, ?_, ⟨a, none, none, none, none⟩, ?_, rfl, hco, hcov, ?_, ?_, hkeys, ?_⟩
  · rw [h3]; exact ⟨i1, hs.caches.stable i2⟩
  · rw [h3]; exact i2
  · rcases hv : s.1.frame.view s.1.frame.objs.length with _ | v
    · rfl
    · exact absurd (Frame.lt_of_view hv) (lt_irrefl _)
  · rw [h3]; exact view_push_new
  · intro p D hD
    obtain ⟨E, m1, m2, -⟩ := k2 p (List.mem_range.2 (by have := (hkeys p).1 (Dict.mem_keys_iff.2 ⟨D, hD⟩); omega))
    have : D = E := by
      ext v
      rw [hco.agree p D hD, hm, m1]
    rw [this]; exact m2
  · intro p D hD
    obtain ⟨E, m1, -, m2⟩ := k2 p (List.mem_range.2 (by have := (hkeys p).1 (Dict.mem_keys_iff.2 ⟨D, hD⟩); omega))
    have : D = E := by
      ext v
      rw [hco.agree p D hD, hm, m1]
    rw [this]; exact m2
  · have : a.parts.keys.length = n.toNat := by
      rw [← List.toFinset_card_of_nodup hco.parts_wf, ← Finset.card_range n.toNat]
      congr 1
      ext k
      rw [List.mem_toFinset, hkeys, Finset.mem_range]
      omega
    rw [this]
    omega

/-- **C81** (chain) Every plan of a chain of recombinations started at a random assignment has the labels `0, …, n - 1`, connected districts, and
populations within `eps` of the average. -/
theorem C81_chain {A : Type} [DecidableEq A] (R : Rand X) (hR : R.Valid) (spanFn : Graph V → M X (WTree V)) (hspan : SpanOk spanFn)
    (nodeRepeats : ℕ) (maxAttempts : Option ℕ) (attr : String → V → Option A) (surcharge : Option (Dict String ℚ)) (allow : Bool) (bipFuel : ℕ)
    (pop : V → ℚ) (n : ℤ) (eps : ℚ) (s s0 : World V ℕ X) (hs : HeapInv s.1)
    (hconn : ConnectedOn s.1.frame.data.graph s.1.frame.data.graph.nodes) (c : ChainCfg (World V ℕ X) ℕ)
    (hrand : fromRandomAssignment (recursiveTreePart (bipMethod R spanFn nodeRepeats maxAttempts attr surcharge allow bipFuel pop)) pop n eps s =
      (.ok c.initial, s0))
    (cs : List (Constraint (World V ℕ X) ℕ)) (h : HeapChain c cs)
    (hp : Recombining pop ((∑ v ∈ s.1.frame.data.graph.nodes, pop v) / (n : ℚ)) eps c.proposal)
    (fuel body : ℕ) (s' : World V ℕ X) (ys : List ℕ) (ch' : Chain (World V ℕ X) ℕ)
    (hl : Chain.list c fuel body ⟨cs, none, c.initial⟩ s0 = some (.ok ys, ch', s')) :
    ∀ y ∈ ys, ∃ v, s'.1.frame.view y = some v ∧ ContiguousPlan s.1.frame.data.graph v.assignment ∧
      BalancedPlan pop ((∑ v ∈ s.1.frame.data.graph.nodes, pop v) / (n : ℚ)) eps v.assignment ∧
      (∀ k, k ∈ v.assignment.parts.keys ↔ (k : ℤ) < n) := by
  obtain ⟨-, hi, hst, -, v0, hv0, -, -, -, hc, hb, hk, -⟩ := C81_from_random_assignment R hR spanFn hspan nodeRepeats maxAttempts attr surcharge allow
    bipFuel pop n eps s s0 hs c.initial hconn hrand
  have hg : s0.1.frame.data.graph = s.1.frame.data.graph := by rw [hst.data]
  intro y hy
  obtain ⟨v, h1, h2, h3, h4⟩ := C65_recom_chain h pop _ eps hp s0 hi v0 hv0 (by rw [hg]; exact hc) fuel body s' ys ch' hl y hy
  exact ⟨v, h1, hg ▸ h2, h4 hb, fun k => by rw [h3]; exact hk k⟩

/-- **C81** fails for a single district: `recursive_tree_part` reads `parts[-2]`, so that `from_random_assignment` raises `IndexError` for one district
on every graph, and `ZeroDivisionError` for none. -/
theorem C81_one_district_violation (method : Method V X) (pop : V → ℚ) (eps : ℚ) (s : World V ℕ X) :
    (fromRandomAssignment (recursiveTreePart method) pop 1 eps s).1 = .error .indexError ∧
    (fromRandomAssignment (recursiveTreePart method) pop 0 eps s).1 = .error .zeroDivision := by
  constructor <;> rfl

/-! ### Examples -/

/-- a column with a district for every node, and one that lacks node 2 -/
def exAttr : String → Fin 3 → Option ℕ
  | "full", v => some (v.val % 2)
  | "part", v => if v = 2 then none else some 7
  | _, _ => none

/-- both cases of `C82_attribute` occur -/
example : (∀ v ∈ (Finset.univ : Finset (Fin 3)), exAttr "full" v ≠ none) ∧ (∃ v ∈ (Finset.univ : Finset (Fin 3)), exAttr "part" v = none) := by
  decide

/-- the three cases of `C82_districtr` occur -/
example : (∃ v ∈ (Finset.univ : Finset (Fin 3)), (fun v : Fin 3 => if v = 2 then none else some "a") v = none) ∧
    (∃ v ∈ (Finset.univ : Finset (Fin 3)), ∃ i, (fun v : Fin 3 => some (if v = 2 then "b" else "a")) v = some i ∧ i ∉ (⟨[("a", 1)]⟩ : Dict String ℕ).keys) ∧
    (∀ v ∈ (Finset.univ : Finset (Fin 3)), ∃ i, (fun v : Fin 3 => some (if v = 2 then "b" else "a")) v = some i ∧
      i ∈ (⟨[("a", 1), ("b", 2), ("c", 3)]⟩ : Dict String ℕ).keys) := by
  refine ⟨by decide, ⟨2, by decide, "b", rfl, by decide⟩, ?_⟩
  intro v _
  by_cases h : v = 2
  · exact ⟨"b", by simp [h], by decide⟩
  · exact ⟨"a", by simp [h], by decide⟩

/-- the hypotheses of `C82_assignment_partial` hold for a plan with an empty district -/
example : (⟨⟨[(0, {0, 1}), (1, ∅)]⟩, ⟨[(0, 0), (1, 0)]⟩⟩ : Assignment (Fin 2) (Fin 2)).Coherent :=
  ⟨by unfold Dict.WF; decide, by unfold Dict.WF; decide, by decide, by decide⟩

/-- a run of `from_random_assignment` on the path with six nodes: three districts of two nodes -/
example :
    let r := fromRandomAssignment (recursiveTreePart lowMethod) (fun _ => 1) 3 0 ((Heap.start exLineData exUps : Heap ℕ ℕ), [1, 1, 0, 0, 1, 1])
    r.1.toOption = some 0 ∧ (r.2.1.frame.view 0).map (fun v => v.assignment.parts.keys.length) = some 3 ∧ ConnectedOn exLine exLine.nodes := by
  refine ⟨by decide +kernel, by decide +kernel, ?_⟩
  rw [← nxIsConnected_true (by exact ⟨by decide, by decide, by decide⟩)]
  decide +kernel

end GC

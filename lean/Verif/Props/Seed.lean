import Verif.Model.Seed
import Verif.Props.Recursive
import Verif.Props.PrimeFactor

/-!
# Recursive seed plans (C44)
-/

set_option linter.unusedSectionVars false
set_option autoImplicit false

namespace GC

variable {V : Type} [LinearOrder V] {S : Type} {P : Type} [DecidableEq P]

/-! ### Subgraphs of subgraphs -/

theorem Graph.subgraph_subgraph (G : Graph V) (s t : Finset V) : (G.subgraph s).subgraph t = G.subgraph (s ∩ t) := by
  unfold Graph.subgraph
  simp only [Graph.mk.injEq]
  constructor
  · ext v; simp only [Finset.mem_inter]; tauto
  · ext e; simp only [Finset.mem_filter, Finset.mem_inter]; tauto

theorem Graph.subgraph_self {G : Graph V} (hG : G.WF) : G.subgraph G.nodes = G := by
  unfold Graph.subgraph
  rcases G with ⟨nodes, edges⟩
  simp only [Graph.mk.injEq, Finset.inter_self, true_and]
  ext e
  simp only [Finset.mem_filter]
  exact ⟨fun h => h.1, fun h => ⟨h, hG.fst_mem e h, hG.snd_mem e h⟩⟩

theorem Graph.subgraph_nodes {G : Graph V} {s : Finset V} (h : s ⊆ G.nodes) : (G.subgraph s).nodes = s :=
  Finset.inter_eq_right.2 h

/-! ### What the method must satisfy -/

/-- On graphs with the invariant `I` the method returns nonempty proper subsets with the requested balance, and both sides
have the invariant again. -/
def MethodSeed (I : Graph V → Prop) (pop : V → ℚ) (method : Method V S) : Prop :=
  ∀ H t e o w A w', H.WF → I H → method H t e o w = (.ok (some A), w') →
    A ⊆ H.nodes ∧ A.Nonempty ∧ (H.nodes \ A).Nonempty ∧ Near t e (popOf pop A) ∧
    (o = false → Near t e (popOf pop (H.nodes \ A))) ∧ I (H.subgraph A) ∧ I (H.subgraph (H.nodes \ A))

/-- a list of districts of a graph -/
structure Districts (I : Graph V → Prop) (G : Graph V) (L : List (Finset V)) : Prop where
  nonempty : ∀ D ∈ L, D.Nonempty
  sub : ∀ D ∈ L, D ⊆ G.nodes
  inv : ∀ D ∈ L, I (G.subgraph D)
  disj : L.Pairwise Disjoint
  cover : ∀ v ∈ G.nodes, ∃ D ∈ L, v ∈ D

theorem setAll_get? {flips : Dict V P} {nodes : Finset V} {part : P} (v : V) :
    (setAll flips nodes part).get? v = if v ∈ nodes then some part else flips.get? v := by
  unfold setAll
  have : ∀ (l : List V) (d : Dict V P), (l.foldl (fun d v => d.set v part) d).get? v = if v ∈ l then some part else d.get? v := by
    intro l
    induction l with
    | nil => simp
    | cons a l ih =>
      intro d
      simp only [List.foldl_cons, ih, Dict.get?_set, List.mem_cons]
      by_cases h1 : v ∈ l <;> by_cases h2 : v = a <;> simp [h1, h2]
  rw [this]
  simp only [mem_iter]

theorem setAll_wf {flips : Dict V P} (h : flips.WF) {nodes : Finset V} {part : P} : (setAll flips nodes part).WF := by
  unfold setAll
  have : ∀ (l : List V) (d : Dict V P), d.WF → (l.foldl (fun d v => d.set v part) d).WF := by
    intro l
    induction l with
    | nil => intro d h; exact h
    | cons a l ih => intro d h; exact ih _ (Dict.WF.set h _ _)
  exact this _ _ h

/-! ### Chunks -/

/-- what the loop over the parts achieves: parts `i, …, i + k - 1` are nonempty, within the tolerance and have the invariant,
as has the rest, which is the last part -/
structure ChunkInv (I : Graph V → Prop) (G : Graph V) (pop : V → ℚ) (target eps : ℚ) (last i k : ℕ) (flips f : Dict V ℕ)
    (R R' : Finset V) : Prop where
  wf : f.WF
  sub : R' ⊆ R
  nonempty : R'.Nonempty
  inv : I (G.subgraph R')
  frame : ∀ v, v ∉ R → f.get? v = flips.get? v
  rest : 1 ≤ k → ∀ v ∈ R', f.get? v = some last
  stay : k = 0 → R' = R
  cover : ∀ v ∈ R, v ∉ R' → ∃ j, i ≤ j ∧ j < i + k ∧ f.get? v = some j
  part : ∀ j, i ≤ j → j < i + k → (districtIn R f j).Nonempty ∧ Near target eps (popOf pop (districtIn R f j)) ∧
    I (G.subgraph (districtIn R f j))

theorem chunkLoop_spec {I : Graph V → Prop} {pop : V → ℚ} {method : Method V S} (hm : MethodSeed I pop method)
    {G : Graph V} (hG : G.WF) {target eps : ℚ} {last : ℕ} :
    ∀ (k i : ℕ) (flips f : Dict V ℕ) (R R' : Finset V) (w w' : S), flips.WF → R ⊆ G.nodes → R.Nonempty → I (G.subgraph R) →
      i + k ≤ last → chunkLoop method G target eps last k i flips R w = (.ok (f, R'), w') →
      ChunkInv I G pop target eps last i k flips f R R' := by
  intro k
  induction k with
  | zero =>
    intro i flips f R R' w w' hwf _ hne hI _ h
    cases h
    exact ⟨hwf, Finset.Subset.refl _, hne, hI, fun _ _ => rfl, by omega, fun _ => rfl, fun v h1 h2 => absurd h1 h2, by omega⟩
  | succ k ih =>
    intro i flips f R R' w w' hwf hR hne hI hlast h
    unfold chunkLoop at h
    obtain ⟨r, w1, h1, g2⟩ := M.bind_eq_ok h
    obtain ⟨A, w2, h2, g3⟩ := M.bind_eq_ok g2
    have hr := notNone_eq_ok (M.lift_eq_ok h2).1
    subst hr
    obtain ⟨m1, m2, m3, m4, _, m5, m6⟩ := hm _ _ _ _ _ _ _ (hG.subgraph R) hI h1
    rw [Graph.subgraph_nodes hR] at m1 m3 m6
    rw [Graph.subgraph_subgraph, Finset.inter_eq_right.2 m1] at m5
    rw [Graph.subgraph_subgraph, Finset.inter_eq_right.2 Finset.sdiff_subset] at m6
    have ih := ih (i + 1) _ f (R \ A) R' w2 w' (setAll_wf (setAll_wf hwf)) (Finset.sdiff_subset.trans hR) m3 m6 (by omega) g3
    have hget : ∀ v, (setAll (setAll flips A i) (R \ A) last).get? v =
        if v ∈ R \ A then some last else if v ∈ A then some i else flips.get? v := by
      intro v
      rw [setAll_get?, setAll_get?]
    have hA : ∀ v ∈ A, f.get? v = some i := by
      intro v hv
      rw [ih.frame v (by simp [hv]), hget, if_neg (by simp [hv]), if_pos hv]
    have hother : ∀ v ∈ R, v ∉ A → ∃ j, i < j ∧ f.get? v = some j := by
      intro v hv hva
      by_cases hv' : v ∈ R'
      · rcases Nat.eq_zero_or_pos k with hk | hk
        · have hst := ih.stay hk
          subst hk
          cases g3
          refine ⟨last, by omega, ?_⟩
          rw [hget, if_pos (by simp [hv, hva])]
        · exact ⟨last, by omega, ih.rest hk v hv'⟩
      · obtain ⟨j, a, _, c⟩ := ih.cover v (by simp [hv, hva]) hv'
        exact ⟨j, by omega, c⟩
    have hdi : districtIn R f i = A := by
      ext v
      simp only [districtIn, Finset.mem_filter]
      constructor
      · rintro ⟨hv, h⟩
        by_contra hcon
        obtain ⟨j, a, b⟩ := hother v hv hcon
        rw [h] at b
        have := Option.some.inj b
        omega
      · intro hv
        exact ⟨m1 hv, hA v hv⟩
    have hdj : ∀ j, j ≠ i → districtIn R f j = districtIn (R \ A) f j := by
      intro j hj
      ext v
      simp only [districtIn, Finset.mem_filter, Finset.mem_sdiff]
      constructor
      · rintro ⟨hv, h⟩
        refine ⟨⟨hv, fun hva => ?_⟩, h⟩
        rw [hA v hva] at h
        exact hj (Option.some.inj h).symm
      · rintro ⟨⟨hv, _⟩, h⟩
        exact ⟨hv, h⟩
    refine ⟨ih.wf, ih.sub.trans Finset.sdiff_subset, ih.nonempty, ih.inv, ?_, ?_, by omega, ?_, ?_⟩
    · intro v hv
      rw [ih.frame v (by simp [hv]), hget, if_neg (by simp [hv]), if_neg (fun h => hv (m1 h))]
    · intro _ v hv
      rcases Nat.eq_zero_or_pos k with hk | hk
      · have hst := ih.stay hk
        subst hk
        cases g3
        rw [hget, if_pos hv]
      · exact ih.rest hk v hv
    · intro v hv hv'
      by_cases hva : v ∈ A
      · exact ⟨i, le_refl _, by omega, hA v hva⟩
      · obtain ⟨j, a, b, c⟩ := ih.cover v (by simp [hv, hva]) hv'
        exact ⟨j, by omega, by omega, c⟩
    · intro j hj1 hj2
      by_cases hji : j = i
      · rw [hji, hdi]
        exact ⟨m2, m4, m5⟩
      · rw [hdj j hji]
        exact ih.part j (by omega) (by omega)

/-- grouping the nodes by their values -/
theorem groupChunks_get? (f : Dict V ℕ) : (groupChunks f).WF ∧ ∀ j,
    (groupChunks f).get? j = if f.entries.filter (fun e => e.2 = j) = [] then none
      else some ((f.entries.filter (fun e => e.2 = j)).map Prod.fst) := by
  have gen : ∀ (l : List (V × ℕ)) (d : Dict ℕ (List V)), d.WF →
      (l.foldl (fun d e => d.modifyD e.2 [] (· ++ [e.1])) d).WF ∧ ∀ j,
      (l.foldl (fun d e => d.modifyD e.2 [] (· ++ [e.1])) d).get? j =
        if l.filter (fun e => e.2 = j) = [] then d.get? j
        else some ((d.get? j).getD [] ++ (l.filter (fun e => e.2 = j)).map Prod.fst) := by
    intro l
    induction l with
    | nil => intro d h; exact ⟨h, by simp⟩
    | cons a l ih =>
      intro d h
      obtain ⟨h1, h2⟩ := ih (d.modifyD a.2 [] (· ++ [a.1])) (Dict.WF.modifyD h _ _ _)
      refine ⟨h1, ?_⟩
      intro j
      simp only [List.foldl_cons]
      rw [h2, Dict.get?_modifyD]
      by_cases haj : a.2 = j
      · subst haj
        have e1 : (a :: l).filter (fun e => decide (e.2 = a.2)) = a :: l.filter (fun e => decide (e.2 = a.2)) := by simp
        rw [e1]
        by_cases he : l.filter (fun e => decide (e.2 = a.2)) = []
        · simp [he]
        · simp [he]
      · have e1 : (a :: l).filter (fun e => decide (e.2 = j)) = l.filter (fun e => decide (e.2 = j)) := by simp [haj]
        rw [e1, if_neg (Ne.symm haj)]
  obtain ⟨h1, h2⟩ := gen f.entries Dict.empty Dict.wf_empty
  refine ⟨h1, fun j => ?_⟩
  unfold groupChunks
  rw [h2]
  rfl

/-- the chunks are the districts of the labels in use, each once -/
theorem groupChunks_values (f : Dict V ℕ) (hf : f.WF) (R : Finset V) (hk : ∀ v, v ∈ f.keys ↔ v ∈ R) :
    ∃ labels : List ℕ, labels.Nodup ∧ (∀ j, j ∈ labels ↔ (districtIn R f j).Nonempty) ∧
      (groupChunks f).values.map List.toFinset = labels.map (districtIn R f) := by
  obtain ⟨h1, h2⟩ := groupChunks_get? f
  have hin : ∀ v j, f.get? v = some j → v ∈ R := by
    intro v j h
    rw [← hk, Dict.mem_keys_iff, h]; exact ⟨j, rfl⟩
  have hfil : ∀ j, f.entries.filter (fun e => e.2 = j) = [] ↔ ¬ (districtIn R f j).Nonempty := by
    intro j
    rw [List.filter_eq_nil_iff, Finset.not_nonempty_iff_eq_empty]
    constructor
    · intro h
      ext v
      simp only [districtIn, Finset.mem_filter, Finset.notMem_empty, iff_false, not_and]
      intro _ hv
      exact h _ (Dict.mem_entries_of_get? hv) (by simp)
    · rintro h ⟨v, x⟩ he hx
      have hx : x = j := by simpa using hx
      subst hx
      have hv := Dict.get?_of_mem_entries hf he
      have : v ∈ districtIn R f x := by
        simp only [districtIn, Finset.mem_filter]
        exact ⟨hin _ _ hv, hv⟩
      rw [h] at this
      simp at this
  refine ⟨(groupChunks f).keys, h1, ?_, ?_⟩
  · intro j
    rw [Dict.mem_keys_iff, h2]
    by_cases h : f.entries.filter (fun e => e.2 = j) = []
    · rw [if_pos h]
      simpa using (hfil j).1 h
    · rw [if_neg h]
      rw [hfil] at h
      simpa using not_not.1 h
  · unfold Dict.values Dict.keys
    rw [List.map_map, List.map_map]
    apply List.map_congr_left
    rintro ⟨j, c⟩ he
    have hc := Dict.get?_of_mem_entries h1 he
    rw [h2] at hc
    simp only [Function.comp]
    by_cases h : f.entries.filter (fun e => e.2 = j) = []
    · rw [if_pos h] at hc; cases hc
    · rw [if_neg h] at hc
      cases hc
      ext v
      simp only [List.mem_toFinset, List.mem_map, List.mem_filter, decide_eq_true_eq, districtIn, Finset.mem_filter]
      constructor
      · rintro ⟨⟨v', x⟩, ⟨h3, rfl⟩, rfl⟩
        have := Dict.get?_of_mem_entries hf h3
        exact ⟨hin _ _ this, this⟩
      · rintro ⟨_, hv⟩
        exact ⟨(v, j), ⟨Dict.mem_entries_of_get? hv, rfl⟩, rfl⟩

theorem sum_iter (pop : V → ℚ) (s : Finset V) : ((iter s).map pop).sum = popOf pop s :=
  init_totPop s ⟨∅, ∅⟩ (fun _ _ => none) pop 0 0

theorem seedChunksLoop_spec {I : Graph V → Prop} {pop : V → ℚ} {method : Method V S} (hm : MethodSeed I pop method)
    {G : Graph V} (hG : G.WF) (hne : G.nodes.Nonempty) (hI : I G) {m left : ℕ} (hm2 : 2 ≤ m) {target eps : ℚ}
    (ht : 0 ≤ target) (he : 0 ≤ eps) : ∀ (fuel : ℕ) (newEps : ℚ) (w w' : S) (cs : List (List V)), newEps ≤ eps →
      seedChunksLoop method G pop m left target eps fuel newEps w = (.ok cs, w') →
      Districts I G (cs.map List.toFinset) ∧ cs.length = m ∧
        (left = 1 → ∀ D ∈ cs.map List.toFinset, PopOk target eps (popOf pop D)) := by
  intro fuel
  induction fuel with
  | zero => intro newEps w w' cs _ h; cases h
  | succ fuel ih =>
    intro newEps w w' cs hle h
    unfold seedChunksLoop at h
    simp only at h
    obtain ⟨e, w1, h1, g2⟩ := M.bind_eq_ok h
    obtain ⟨⟨f, R'⟩, w2, h2, g3⟩ := M.bind_eq_ok g2
    simp only at g3
    by_cases hl : lastChunkOk target eps left ((iter R').map pop).sum = true
    swap
    · rw [if_neg hl] at g3
      exact ih _ _ _ _ (by linarith) g3
    rw [if_pos hl] at g3
    cases g3
    have hself := Graph.subgraph_self hG
    have hci := chunkLoop_spec hm hG (m - 1) 0 Dict.empty f G.nodes R' w1 _ Dict.wf_empty (Finset.Subset.refl _) hne
      (by rw [hself]; exact hI) (by omega) h2
    have hout : ∀ v, v ∉ G.nodes → f.get? v = none := fun v hv => hci.frame v hv
    have hcov : ∀ v ∈ G.nodes, ∃ j, j < m ∧ f.get? v = some j := by
      intro v hv
      by_cases hv' : v ∈ R'
      · exact ⟨m - 1, by omega, hci.rest (by omega) v hv'⟩
      · obtain ⟨j, _, b, c⟩ := hci.cover v hv hv'
        exact ⟨j, by omega, c⟩
    have hk : ∀ v, v ∈ f.keys ↔ v ∈ G.nodes := by
      intro v
      rw [Dict.mem_keys_iff]
      constructor
      · rintro ⟨j, hj⟩
        by_contra hcon
        rw [hout v hcon] at hj
        cases hj
      · intro hv
        obtain ⟨j, _, hj⟩ := hcov v hv
        exact ⟨j, hj⟩
    have hlast : districtIn G.nodes f (m - 1) = R' := by
      ext v
      simp only [districtIn, Finset.mem_filter]
      constructor
      · rintro ⟨hv, h⟩
        by_contra hcon
        obtain ⟨j, _, b, c⟩ := hci.cover v hv hcon
        rw [h] at c
        have := Option.some.inj c
        omega
      · intro hv
        exact ⟨hci.sub hv, hci.rest (by omega) v hv⟩
    have hparts : ∀ j, j < m → (districtIn G.nodes f j).Nonempty ∧ I (G.subgraph (districtIn G.nodes f j)) := by
      intro j hj
      rcases Nat.lt_or_ge j (m - 1) with h | h
      · have := hci.part j (Nat.zero_le _) (by omega)
        exact ⟨this.1, this.2.2⟩
      · have : j = m - 1 := by omega
        subst this
        rw [hlast]
        exact ⟨hci.nonempty, hci.inv⟩
    have hlt : ∀ j, (districtIn G.nodes f j).Nonempty → j < m := by
      rintro j ⟨v, hv⟩
      simp only [districtIn, Finset.mem_filter] at hv
      obtain ⟨j', a, b⟩ := hcov v hv.1
      rw [hv.2] at b
      have := Option.some.inj b
      omega
    obtain ⟨labels, l1, l2, l3⟩ := groupChunks_values f hci.wf G.nodes hk
    have hlab : ∀ j, j ∈ labels ↔ j < m := fun j => (l2 j).trans ⟨hlt j, fun h => (hparts j h).1⟩
    have hlen : labels.length = m := by
      rw [← List.toFinset_card_of_nodup l1]
      have : labels.toFinset = Finset.range m := by
        ext j
        simp [hlab]
      rw [this, Finset.card_range]
    rw [l3]
    refine ⟨⟨?_, ?_, ?_, ?_, ?_⟩, ?_, ?_⟩
    · intro D hD
      obtain ⟨j, hj, rfl⟩ := List.mem_map.1 hD
      exact (hparts j ((hlab j).1 hj)).1
    · intro D hD
      obtain ⟨j, hj, rfl⟩ := List.mem_map.1 hD
      exact Finset.filter_subset _ _
    · intro D hD
      obtain ⟨j, hj, rfl⟩ := List.mem_map.1 hD
      exact (hparts j ((hlab j).1 hj)).2
    · rw [List.pairwise_map]
      refine l1.imp ?_
      intro a b hab
      rw [Finset.disjoint_left]
      intro v h1 h2
      simp only [districtIn, Finset.mem_filter] at h1 h2
      rw [h1.2] at h2
      exact hab (Option.some.inj h2.2)
    · intro v hv
      obtain ⟨j, hj, e⟩ := hcov v hv
      refine ⟨districtIn G.nodes f j, List.mem_map.2 ⟨j, (hlab j).2 hj, rfl⟩, ?_⟩
      simp only [districtIn, Finset.mem_filter]
      exact ⟨hv, e⟩
    · have := congrArg List.length l3
      simp only [List.length_map] at this
      rw [this, hlen]
    · rintro rfl D hD
      obtain ⟨j, hj, rfl⟩ := List.mem_map.1 hD
      rcases Nat.lt_or_ge j (m - 1) with h | h
      · have hn := (hci.part j (Nat.zero_le _) (by omega)).2.1
        have h1 := (M.lift_eq_ok h1).1
        unfold chunkEpsilon at h1
        simp only at h1
        by_cases h0 : ((iter G.nodes).map pop).sum / (m : ℚ) = 0
        · rw [if_pos h0] at h1; cases h1
        rw [if_neg h0] at h1
        injection h1 with h1
        unfold Near at hn
        rw [← h1, div_mul_cancel₀ _ h0, abs_le] at hn
        have e1 := min_le_left (target * (1 + newEps) * (1 : ℕ) - ((iter G.nodes).map pop).sum / (m : ℚ))
          (((iter G.nodes).map pop).sum / (m : ℚ) - target * (1 - newEps) * (1 : ℕ))
        have e2 := min_le_right (target * (1 + newEps) * (1 : ℕ) - ((iter G.nodes).map pop).sum / (m : ℚ))
          (((iter G.nodes).map pop).sum / (m : ℚ) - target * (1 - newEps) * (1 : ℕ))
        have e3 : target * newEps ≤ target * eps := mul_le_mul_of_nonneg_left hle ht
        simp only [Nat.cast_one, mul_one] at *
        unfold PopOk
        constructor <;> nlinarith
      · have : j = m - 1 := by have := (hlab j).1 hj; omega
        subst this
        rw [hlast]
        unfold lastChunkOk at hl
        simp only [sum_iter, if_true, Nat.cast_one, div_one, abs_of_nonneg he, Bool.and_eq_true, Bool.not_eq_true',
          decide_eq_false_iff_not, not_lt] at hl
        exact hl

theorem asSet_eq_ok {x : Option (Finset V)} {A : Finset V} (h : asSet x = .ok A) : x = some A := by
  rcases x with _ | s
  · cases h
  · cases h; rfl

/-- what `recursive_seed_part_inner` achieves -/
structure SeedPlan (I : Graph V → Prop) (pop : V → ℚ) (target eps : ℚ) (G : Graph V) (d : ℕ) (L : List (Finset V)) : Prop where
  districts : Districts I G L
  length : L.length = d
  pop : 2 ≤ d → ∀ D ∈ L, PopOk target eps (popOf pop D)

theorem mapML_ok {α β : Type} {f : α → M S β} : ∀ (l : List α) (w w' : S) (bs : List β), mapML f l w = (.ok bs, w') →
    List.Forall₂ (fun a b => ∃ w1 w2, f a w1 = (.ok b, w2)) l bs := by
  intro l
  induction l with
  | nil => intro w w' bs h; cases h; exact List.Forall₂.nil
  | cons a l ih =>
    intro w w' bs h
    unfold mapML at h
    obtain ⟨b, w1, h1, g2⟩ := M.bind_eq_ok h
    obtain ⟨bs', w2, h2, g3⟩ := M.bind_eq_ok g2
    cases g3
    exact List.Forall₂.cons ⟨w, w1, h1⟩ (ih _ _ _ h2)

/-- biting off one district -/
theorem seed_bite {I : Graph V → Prop} {pop : V → ℚ} {method : Method V S} (hm : MethodSeed I pop method) {target eps : ℚ}
    {G : Graph V} (hG : G.WF) (hI : I G) {d : ℕ} (hd : 3 ≤ d) {inner : Graph V → ℕ → M S (List (Finset V))}
    (hin : ∀ H L w w', H.WF → H.nodes.Nonempty → I H → inner H (d - 1) w = (.ok L, w') → SeedPlan I pop target eps H (d - 1) L)
    {w w' : S} {L : List (Finset V)}
    (h : (do
        let r ← method (G.subgraph G.nodes) target eps true
        let nodes ← M.lift (asSet r)
        let rest ← inner (G.subgraph (G.nodes \ nodes)) (d - 1)
        pure (nodes :: rest) : M S (List (Finset V))) w = (.ok L, w')) : SeedPlan I pop target eps G d L := by
  obtain ⟨r, w1, h1, g2⟩ := M.bind_eq_ok h
  obtain ⟨A, w2, h2, g3⟩ := M.bind_eq_ok g2
  obtain ⟨rest, w3, h3, g4⟩ := M.bind_eq_ok g3
  cases g4
  have hr := asSet_eq_ok (M.lift_eq_ok h2).1
  subst hr
  rw [Graph.subgraph_self hG] at h1
  obtain ⟨m1, m2, m3, m4, _, m5, m6⟩ := hm _ _ _ _ _ _ _ hG hI h1
  have hnodes : (G.subgraph (G.nodes \ A)).nodes = G.nodes \ A := Graph.subgraph_nodes Finset.sdiff_subset
  have hs := hin _ _ _ _ (hG.subgraph _) (by rw [hnodes]; exact m3) m6 h3
  have hsub : ∀ D ∈ rest, D ⊆ G.nodes \ A := by
    intro D hD
    have := hs.districts.sub D hD
    rwa [hnodes] at this
  refine ⟨⟨?_, ?_, ?_, ?_, ?_⟩, ?_, ?_⟩
  · intro D hD
    rcases List.mem_cons.1 hD with rfl | hD
    · exact m2
    · exact hs.districts.nonempty D hD
  · intro D hD
    rcases List.mem_cons.1 hD with rfl | hD
    · exact m1
    · exact (hsub D hD).trans Finset.sdiff_subset
  · intro D hD
    rcases List.mem_cons.1 hD with rfl | hD
    · exact m5
    · have := hs.districts.inv D hD
      rwa [Graph.subgraph_subgraph, Finset.inter_eq_right.2 (hsub D hD)] at this
  · rw [List.pairwise_cons]
    refine ⟨?_, hs.districts.disj⟩
    intro D hD
    rw [Finset.disjoint_left]
    intro v h1 h2
    exact (Finset.mem_sdiff.1 (hsub D hD h2)).2 h1
  · intro v hv
    by_cases hva : v ∈ A
    · exact ⟨A, List.mem_cons_self, hva⟩
    · obtain ⟨D, hD, h⟩ := hs.districts.cover v (by rw [hnodes]; simp [hv, hva])
      exact ⟨D, List.mem_cons_of_mem _ hD, h⟩
  · simp [hs.length]; omega
  · intro _ D hD
    rcases List.mem_cons.1 hD with rfl | hD
    · exact near_iff_popOk.1 m4
    · exact hs.pop (by omega) D hD

/-- recursing into the chunks -/
theorem seed_chunks {I : Graph V → Prop} {pop : V → ℚ} {target eps : ℚ} {G : Graph V} (hG : G.WF) {left : ℕ} (hleft : 1 ≤ left)
    {inner : Graph V → ℕ → M S (List (Finset V))}
    (hin : ∀ H L w w', H.WF → H.nodes.Nonempty → I H → inner H left w = (.ok L, w') → SeedPlan I pop target eps H left L ∧
      (left = 1 → L = [H.nodes]))
    {cs : List (List V)} (hcs : Districts I G (cs.map List.toFinset))
    (hpop : left = 1 → ∀ D ∈ cs.map List.toFinset, PopOk target eps (popOf pop D))
    {ps : List (List (Finset V))}
    (h : List.Forall₂ (fun c b => ∃ w1 w2, inner (G.subgraph c.toFinset) left w1 = (.ok b, w2)) cs ps) :
    SeedPlan I pop target eps G (left * cs.length) ps.flatten := by
  have key : List.Forall₂ (fun c b => SeedPlan I pop target eps (G.subgraph c.toFinset) left b ∧
      (∀ D ∈ b, D ⊆ c.toFinset) ∧ ∀ D ∈ b, PopOk target eps (popOf pop D)) cs ps := by
    have hmem : ∀ c ∈ cs, c.toFinset ∈ cs.map List.toFinset := fun c hc => List.mem_map.2 ⟨c, hc, rfl⟩
    have : ∀ (cs' : List (List V)) (ps' : List (List (Finset V))), (∀ c ∈ cs', c ∈ cs) →
        List.Forall₂ (fun c b => ∃ w1 w2, inner (G.subgraph c.toFinset) left w1 = (.ok b, w2)) cs' ps' →
        List.Forall₂ (fun c b => SeedPlan I pop target eps (G.subgraph c.toFinset) left b ∧
          (∀ D ∈ b, D ⊆ c.toFinset) ∧ ∀ D ∈ b, PopOk target eps (popOf pop D)) cs' ps' := by
      intro cs' ps' hsub hf
      induction hf with
      | nil => exact List.Forall₂.nil
      | @cons c b cs' ps' hcb _ ih =>
        refine List.Forall₂.cons ?_ (ih (fun c hc => hsub c (List.mem_cons_of_mem _ hc)))
        have hc := hmem c (hsub c List.mem_cons_self)
        obtain ⟨w1, w2, h⟩ := hcb
        have hn : (G.subgraph c.toFinset).nodes = c.toFinset := Graph.subgraph_nodes (hcs.sub _ hc)
        obtain ⟨s1, s2⟩ := hin _ _ _ _ (hG.subgraph _) (by rw [hn]; exact hcs.nonempty _ hc) (hcs.inv _ hc) h
        refine ⟨s1, ?_, ?_⟩
        · intro D hD
          have := s1.districts.sub D hD
          rwa [hn] at this
        · intro D hD
          rcases Nat.lt_or_ge 1 left with h1 | h1
          · exact s1.pop h1 D hD
          · have h1 : left = 1 := by omega
            rw [s2 h1, hn] at hD
            rw [List.mem_singleton.1 hD]
            exact hpop h1 _ hc
    exact this cs ps (fun _ h => h) h
  clear h hin hpop
  -- properties of the flattened list, with the union of the chunks in place of all nodes
  have gen : ∀ (cs' : List (List V)) (ps' : List (List (Finset V))), (cs'.map List.toFinset).Pairwise Disjoint →
      (∀ c ∈ cs', c.toFinset ⊆ G.nodes) →
      List.Forall₂ (fun c b => SeedPlan I pop target eps (G.subgraph c.toFinset) left b ∧
        (∀ D ∈ b, D ⊆ c.toFinset) ∧ ∀ D ∈ b, PopOk target eps (popOf pop D)) cs' ps' →
      (∀ D ∈ ps'.flatten, D.Nonempty ∧ I (G.subgraph D) ∧ PopOk target eps (popOf pop D) ∧ ∃ c ∈ cs', D ⊆ c.toFinset) ∧
      ps'.flatten.Pairwise Disjoint ∧ (∀ c ∈ cs', ∀ v ∈ c.toFinset, ∃ D ∈ ps'.flatten, v ∈ D) ∧
      ps'.flatten.length = left * cs'.length := by
    intro cs' ps' hdis hsub hf
    induction hf with
    | nil => simp
    | @cons c b cs' ps' hcb _ ih =>
      rw [List.map_cons, List.pairwise_cons] at hdis
      obtain ⟨i1, i2, i3, i4⟩ := ih hdis.2 (fun c hc => hsub c (List.mem_cons_of_mem _ hc))
      obtain ⟨s1, s2, s3⟩ := hcb
      have hc := hsub c List.mem_cons_self
      refine ⟨?_, ?_, ?_, ?_⟩
      · intro D hD
        rw [List.flatten_cons, List.mem_append] at hD
        rcases hD with hD | hD
        · refine ⟨s1.districts.nonempty D hD, ?_, s3 D hD, c, List.mem_cons_self, s2 D hD⟩
          have := s1.districts.inv D hD
          rwa [Graph.subgraph_subgraph, Finset.inter_eq_right.2 (s2 D hD)] at this
        · obtain ⟨a1, a2, a3, c', hc', a4⟩ := i1 D hD
          exact ⟨a1, a2, a3, c', List.mem_cons_of_mem _ hc', a4⟩
      · rw [List.flatten_cons, List.pairwise_append]
        refine ⟨s1.districts.disj, i2, ?_⟩
        intro D hD D' hD'
        obtain ⟨_, _, _, c', hc', a4⟩ := i1 D' hD'
        exact Finset.disjoint_of_subset_left (s2 D hD) (Finset.disjoint_of_subset_right a4
          (hdis.1 _ (List.mem_map.2 ⟨c', hc', rfl⟩)))
      · intro c' hc' v hv
        rcases List.mem_cons.1 hc' with rfl | hc'
        · obtain ⟨D, hD, hvD⟩ := s1.districts.cover v (by rw [Graph.subgraph_nodes hc]; exact hv)
          exact ⟨D, by rw [List.flatten_cons]; exact List.mem_append_left _ hD, hvD⟩
        · obtain ⟨D, hD, hvD⟩ := i3 c' hc' v hv
          exact ⟨D, by rw [List.flatten_cons]; exact List.mem_append_right _ hD, hvD⟩
      · rw [List.flatten_cons, List.length_append, i4, s1.length, List.length_cons]
        ring
  have hsub : ∀ c ∈ cs, c.toFinset ⊆ G.nodes := fun c hc => hcs.sub _ (List.mem_map.2 ⟨c, hc, rfl⟩)
  obtain ⟨i1, i2, i3, i4⟩ := gen cs ps hcs.disj hsub key
  refine ⟨⟨fun D hD => (i1 D hD).1, ?_, fun D hD => (i1 D hD).2.1, i2, ?_⟩, i4, fun _ D hD => (i1 D hD).2.2.1⟩
  · intro D hD
    obtain ⟨_, _, _, c, hc, h⟩ := i1 D hD
    exact h.trans (hsub c hc)
  · intro v hv
    obtain ⟨X, hX, hvX⟩ := hcs.cover v hv
    obtain ⟨c, hc, rfl⟩ := List.mem_map.1 hX
    exact i3 c hc v hvX

theorem chooseChunks_two {n ceil : Option ℤ} {d m : ℕ} (hd : 1 ≤ d) (h : chooseChunks n ceil d = .ok (some m)) : 2 ≤ m := by
  unfold chooseChunks at h
  rcases n with _ | n
  · have key : ∀ c r, maxPrimeFactor (d : ℤ) c = some r → r = some m → 2 ≤ m := by
      intro c r h1 h2
      obtain ⟨r', k1, k2, _⟩ := C43_max_prime_factor d hd c
      rw [h1] at k1
      cases k1
      exact ((k2 m).1 h2).1.two_le
    rcases ceil with _ | c
    · simp only at h
      rcases h1 : maxPrimeFactor (d : ℤ) (d : ℤ) with _ | r
      · rw [h1] at h; cases h
      · rw [h1] at h
        injection h with h
        exact key _ _ h1 h
    · simp only at h
      by_cases hc : c ≥ 2
      · rw [if_pos hc] at h
        rcases h1 : maxPrimeFactor (d : ℤ) c with _ | r
        · rw [h1] at h; cases h
        · rw [h1] at h
          injection h with h
          exact key _ _ h1 h
      · rw [if_neg hc] at h; cases h
  · simp only at h
    by_cases hn : n > 1
    · rw [if_pos hn] at h
      injection h with h
      injection h with h
      omega
    · rw [if_neg hn] at h; cases h

theorem seedInner_spec {I : Graph V → Prop} {pop : V → ℚ} {method : Method V S} (hm : MethodSeed I pop method) {target eps : ℚ}
    (ht : 0 ≤ target) (he : 0 ≤ eps) {chunkFuel : ℕ} {n ceil : Option ℤ} : ∀ (fuel : ℕ) (G : Graph V) (d : ℕ) (w w' : S) (L : List (Finset V)),
      G.WF → G.nodes.Nonempty → I G → seedInner method chunkFuel pop target eps n ceil fuel G d w = (.ok L, w') →
      SeedPlan I pop target eps G d L ∧ (d = 1 → L = [G.nodes]) := by
  intro fuel
  induction fuel with
  | zero => intro G d w w' L _ _ _ h; cases h
  | succ fuel ih =>
    intro G d w w' L hG hne hI h
    unfold seedInner at h
    obtain ⟨nc, w1, h1, g2⟩ := M.bind_eq_ok h
    have hself := Graph.subgraph_self hG
    by_cases hd0 : d = 0
    · rw [if_pos hd0] at g2; cases g2
    rw [if_neg hd0] at g2
    by_cases hd1 : d = 1
    · rw [if_pos hd1] at g2
      cases g2
      refine ⟨⟨⟨?_, ?_, ?_, by simp, ?_⟩, by simp [hd1], by omega⟩, fun _ => rfl⟩
      · simpa using hne
      · simp
      · simpa [hself] using hI
      · intro v hv
        exact ⟨G.nodes, by simp, hv⟩
    rw [if_neg hd1] at g2
    refine ⟨?_, fun h => absurd h hd1⟩
    by_cases hd2 : d = 2
    · rw [if_pos hd2] at g2
      obtain ⟨r, w2, h2, g3⟩ := M.bind_eq_ok g2
      obtain ⟨A, w3, h3, g4⟩ := M.bind_eq_ok g3
      cases g4
      have hr := asSet_eq_ok (M.lift_eq_ok h3).1
      subst hr
      obtain ⟨m1, m2, m3, m4, m4', m5, m6⟩ := hm _ _ _ _ _ _ _ hG hI h2
      refine ⟨⟨?_, ?_, ?_, ?_, ?_⟩, by simp [hd2], ?_⟩
      · simpa using ⟨m2, m3⟩
      · simpa using m1
      · simpa using ⟨m5, m6⟩
      · simp only [List.pairwise_cons, List.mem_singleton, forall_eq, List.not_mem_nil, false_implies, implies_true,
          List.Pairwise.nil, and_self, and_true]
        exact Finset.disjoint_sdiff
      · intro v hv
        by_cases hva : v ∈ A
        · exact ⟨A, by simp, hva⟩
        · exact ⟨G.nodes \ A, by simp, by simp [hv, hva]⟩
      · intro _
        simpa using ⟨near_iff_popOk.1 m4, near_iff_popOk.1 (m4' rfl)⟩
    rw [if_neg hd2] at g2
    rcases nc with _ | m
    · exact seed_bite hm hG hI (by omega) (fun H L w w' a b c h => (ih H (d - 1) w w' L a b c h).1) g2
    · simp only at g2
      by_cases hmod : d % m ≠ 0
      · rw [if_pos hmod] at g2
        exact seed_bite hm hG hI (by omega) (fun H L w w' a b c h => (ih H (d - 1) w w' L a b c h).1) g2
      · rw [if_neg hmod] at g2
        push Not at hmod
        have hm2 := chooseChunks_two (by omega) (M.lift_eq_ok h1).1
        have hdm : m ∣ d := Nat.dvd_of_mod_eq_zero hmod
        have hleft : 1 ≤ d / m := Nat.div_pos (Nat.le_of_dvd (by omega) hdm) (by omega)
        obtain ⟨cs, w2, h2, g3⟩ := M.bind_eq_ok g2
        obtain ⟨ps, w3, h3, g4⟩ := M.bind_eq_ok g3
        cases g4
        unfold seedChunks at h2
        rw [if_neg (by have := Nat.mul_pos hleft (show 0 < m by omega); omega)] at h2
        have hle : (if d / m = 1 then eps else eps / ((d / m * m : ℕ) : ℚ)) ≤ eps := by
          split
          · exact le_rfl
          · apply div_le_self he
            have : 1 ≤ d / m * m := Nat.mul_pos hleft (by omega)
            exact_mod_cast this
        obtain ⟨c1, c2, c3⟩ := seedChunksLoop_spec hm hG hne hI hm2 ht he chunkFuel _ _ _ cs hle h2
        have := seed_chunks (inner := fun H d => seedInner method chunkFuel pop target eps n ceil fuel H d) hG hleft
          (fun H L w w' a b c h => ih H (d / m) w w' L a b c h) c1 c3 (mapML_ok _ _ _ _ h3)
        rw [c2, Nat.div_mul_cancel hdm] at this
        exact this

theorem labelDistricts_spec : ∀ (L : List (Finset V)) (parts : List P) (flips f : Dict V P), L.length = parts.length →
    L.Pairwise Disjoint → labelDistricts L parts flips = .ok f →
    List.Forall₂ (fun D p => ∀ v ∈ D, f.get? v = some p) L parts ∧ ∀ v, (∀ D ∈ L, v ∉ D) → f.get? v = flips.get? v := by
  intro L
  induction L with
  | nil =>
    intro parts flips f hl _ h
    cases parts with
    | nil => cases h; exact ⟨List.Forall₂.nil, fun _ _ => rfl⟩
    | cons => simp at hl
  | cons D L ih =>
    intro parts flips f hl hd h
    cases parts with
    | nil => simp at hl
    | cons p parts =>
      rw [List.pairwise_cons] at hd
      obtain ⟨h1, h2⟩ := ih parts _ f (by simpa using hl) hd.2 h
      refine ⟨List.Forall₂.cons ?_ h1, ?_⟩
      · intro v hv
        rw [h2 v (fun D' hD' hv' => Finset.disjoint_left.1 (hd.1 D' hD') hv hv'), setAll_get?, if_pos hv]
      · intro v hv
        rw [h2 v (fun D' hD' => hv D' (List.mem_cons_of_mem _ hD')), setAll_get?, if_neg (hv D List.mem_cons_self)]

theorem forall₂_of_mem {α β : Type} {R : α → β → Prop} {l : List α} {m : List β} (h : List.Forall₂ R l m) :
    ∀ b ∈ m, ∃ a ∈ l, R a b := by
  induction h with
  | nil => simp
  | cons hab _ ih =>
    intro b hb
    rcases List.mem_cons.1 hb with rfl | hb
    · exact ⟨_, List.mem_cons_self, hab⟩
    · obtain ⟨a, ha, h⟩ := ih b hb
      exact ⟨a, List.mem_cons_of_mem _ ha, h⟩

theorem forall₂_of_mem_left {α β : Type} {R : α → β → Prop} {l : List α} {m : List β} (h : List.Forall₂ R l m) :
    ∀ a ∈ l, ∃ b ∈ m, R a b := by
  induction h with
  | nil => simp
  | cons hab _ ih =>
    intro b hb
    rcases List.mem_cons.1 hb with rfl | hb
    · exact ⟨_, List.mem_cons_self, hab⟩
    · obtain ⟨a, ha, h⟩ := ih b hb
      exact ⟨a, List.mem_cons_of_mem _ ha, h⟩

/-- with distinct labels the labelled districts are the level sets -/
theorem labels_level_sets {L : List (Finset V)} {parts : List P} {f : Dict V P} (hnd : parts.Nodup)
    (h : List.Forall₂ (fun D p => ∀ v ∈ D, f.get? v = some p) L parts) (hcov : ∀ v p, f.get? v = some p → ∃ D ∈ L, v ∈ D) :
    ∀ p ∈ parts, ∃ D ∈ L, ∀ v, v ∈ D ↔ f.get? v = some p := by
  have key : ∀ (L : List (Finset V)) (parts : List P), parts.Nodup →
      List.Forall₂ (fun D p => ∀ v ∈ D, f.get? v = some p) L parts →
      ∀ p ∈ parts, ∃ D ∈ L, (∀ v ∈ D, f.get? v = some p) ∧ ∀ D' ∈ L, ∀ v ∈ D', f.get? v = some p → v ∈ D := by
    intro L parts hnd h
    induction h with
    | nil => simp
    | @cons D p L parts hDp hrest ih =>
      rw [List.nodup_cons] at hnd
      intro q hq
      rcases List.mem_cons.1 hq with rfl | hq
      · refine ⟨D, List.mem_cons_self, hDp, ?_⟩
        intro D' hD' v hv hvq
        rcases List.mem_cons.1 hD' with rfl | hD'
        · exact hv
        · obtain ⟨p', hp', hall⟩ := forall₂_of_mem_left hrest D' hD'
          have := hall v hv
          rw [hvq] at this
          exact absurd (Option.some.inj this ▸ hp') hnd.1
      · obtain ⟨E, hE, h1, h2⟩ := ih hnd.2 q hq
        refine ⟨E, List.mem_cons_of_mem _ hE, h1, ?_⟩
        intro D' hD' v hv hvq
        rcases List.mem_cons.1 hD' with rfl | hD'
        · have := hDp v hv
          rw [hvq] at this
          exact absurd (Option.some.inj this ▸ hq) hnd.1
        · exact h2 D' hD' v hv hvq
  intro p hp
  obtain ⟨D, hD, h1, h2⟩ := key L parts hnd h p hp
  refine ⟨D, hD, fun v => ⟨h1 v, fun hv => ?_⟩⟩
  obtain ⟨D', hD', hv'⟩ := hcov v p hv
  exact h2 D' hD' v hv' hv

/-- **C44** Whenever `recursive_seed_part` returns, exactly the nodes of the graph are assigned, each to one of the parts;
with distinct labels every part is nonempty and, for at least two parts, has a population within the bounds.  For every
graph, number of parts, `n` and `ceil`, every world and every method that returns nonempty proper subsets with the
requested balance (on graphs with the invariant `I`, which the districts inherit). -/
theorem C44_recursive_seed_part (I : Graph V → Prop) (pop : V → ℚ) (method : Method V S) (hm : MethodSeed I pop method)
    (chunkFuel fuel : ℕ) (G : Graph V) (hG : G.WF) (hne : G.nodes.Nonempty) (hI : I G) (parts : List P) (target eps : ℚ)
    (ht : 0 ≤ target) (he : 0 ≤ eps) (n ceil : Option ℤ) (w w' : S) (f : Dict V P)
    (hret : recursiveSeedPart method chunkFuel fuel G parts pop target eps n ceil w = (.ok f, w')) :
    (∀ v, v ∈ G.nodes ↔ ∃ p ∈ parts, f.get? v = some p) ∧ (∀ v, v ∉ G.nodes → f.get? v = none) ∧
    (parts.Nodup → ∀ p ∈ parts, ∃ D : Finset V, (∀ v, v ∈ D ↔ f.get? v = some p) ∧ D.Nonempty ∧ I (G.subgraph D) ∧
      (2 ≤ parts.length → target * (1 - eps) ≤ ∑ v ∈ D, pop v ∧ ∑ v ∈ D, pop v ≤ target * (1 + eps))) := by
  unfold recursiveSeedPart at hret
  obtain ⟨L, w1, h1, h2⟩ := M.bind_eq_ok hret
  obtain ⟨hs, _⟩ := seedInner_spec hm ht he fuel G parts.length w w1 L hG hne hI h1
  obtain ⟨k1, k2⟩ := labelDistricts_spec L parts Dict.empty f hs.length hs.districts.disj (M.lift_eq_ok h2).1
  have hout : ∀ v, (∀ D ∈ L, v ∉ D) → f.get? v = none := fun v h => k2 v h
  have hcov : ∀ v p, f.get? v = some p → ∃ D ∈ L, v ∈ D := by
    intro v p h
    by_contra hcon
    push Not at hcon
    rw [hout v hcon] at h
    cases h
  refine ⟨?_, ?_, ?_⟩
  · intro v
    constructor
    · intro hv
      obtain ⟨D, hD, hvD⟩ := hs.districts.cover v hv
      obtain ⟨p, hp, h⟩ := forall₂_of_mem_left k1 D hD
      exact ⟨p, hp, h v hvD⟩
    · rintro ⟨p, _, h⟩
      obtain ⟨D, hD, hvD⟩ := hcov v p h
      exact hs.districts.sub D hD hvD
  · intro v hv
    exact hout v (fun D hD h => hv (hs.districts.sub D hD h))
  · intro hnd p hp
    obtain ⟨D, hD, h⟩ := labels_level_sets hnd k1 hcov p hp
    exact ⟨D, h, hs.districts.nonempty D hD, hs.districts.inv D hD, fun h2 => hs.pop h2 D hD⟩

/-- `bipartition_tree` qualifies on connected graphs, so that the districts are connected -/
theorem methodSeed_bip {A : Type} [DecidableEq A] (R : Rand S) (hR : R.Valid) (spanFn : Graph V → M S (WTree V))
    (hspan : SpanOk spanFn) (nodeRepeats : ℕ) (maxAttempts : Option ℕ)
    (attr : String → V → Option A) (surcharge : Option (Dict String ℚ)) (allow : Bool) (fuel : ℕ) (pop : V → ℚ) :
    MethodSeed (fun H => ConnectedOn H H.nodes) pop (bipMethod R spanFn nodeRepeats maxAttempts attr surcharge allow fuel pop) := by
  intro H t e o w X w' hH hc h
  unfold bipMethod at h
  obtain ⟨Y, w1, h1, h2⟩ := M.bind_eq_ok h
  cases h2
  obtain ⟨k1, k2, k3, k4, k5⟩ := C34_default R hR spanFn hspan nodeRepeats maxAttempts attr surcharge o allow fuel (memoBalance R)
    (Or.inl rfl) H hH hc pop t e w w' X h1
  exact ⟨k1, k2.1, k3.1, k4, k5, (connectedOn_subgraph k1).2 k2, (connectedOn_subgraph Finset.sdiff_subset).2 k3⟩

/-- **C44** for `recursive_seed_part` with its default method on a connected graph: the districts are also connected. -/
theorem C44_default {A : Type} [DecidableEq A] (R : Rand S) (hR : R.Valid) (spanFn : Graph V → M S (WTree V))
    (hspan : SpanOk spanFn) (nodeRepeats : ℕ) (maxAttempts : Option ℕ) (attr : String → V → Option A)
    (surcharge : Option (Dict String ℚ)) (allow : Bool) (bipFuel chunkFuel fuel : ℕ) (G : Graph V) (hG : G.WF)
    (hcG : ConnectedOn G G.nodes) (pop : V → ℚ) (target eps : ℚ) (ht : 0 ≤ target) (he : 0 ≤ eps) (n ceil : Option ℤ)
    (parts : List P) (hnd : parts.Nodup) (h2 : 2 ≤ parts.length) (w w' : S) (f : Dict V P)
    (hret : recursiveSeedPart (bipMethod R spanFn nodeRepeats maxAttempts attr surcharge allow bipFuel pop) chunkFuel fuel G parts
      pop target eps n ceil w = (.ok f, w')) :
    (∀ v, v ∈ G.nodes ↔ ∃ p ∈ parts, f.get? v = some p) ∧
    ∀ p ∈ parts, ∃ D : Finset V, (∀ v, v ∈ D ↔ f.get? v = some p) ∧ ConnectedOn G D ∧
      target * (1 - eps) ≤ ∑ v ∈ D, pop v ∧ ∑ v ∈ D, pop v ≤ target * (1 + eps) := by
  obtain ⟨k1, k2, k3⟩ := C44_recursive_seed_part _ pop _
    (methodSeed_bip R hR spanFn hspan nodeRepeats maxAttempts attr surcharge allow bipFuel pop) chunkFuel fuel G hG hcG.1 hcG parts
    target eps ht he n ceil w w' f hret
  refine ⟨k1, fun p hp => ?_⟩
  obtain ⟨D, a, _, c, d⟩ := k3 hnd p hp
  have hD : D ⊆ G.nodes := by
    intro v hv
    exact (k1 v).2 ⟨p, hp, (a v).1 hv⟩
  exact ⟨D, a, (connectedOn_subgraph hD).1 c, d h2⟩

/-! ### Examples -/

/-- a path of twelve nodes of population 1 -/
def exLong : Graph ℕ := ⟨Finset.range 12, (Finset.range 11).image (fun i => (i, i + 1))⟩

/-- six districts: the largest prime factor is 3, so three chunks of two districts; with `n = 4` two districts are bitten off
first, and then there are four chunks -/
example : ((recursiveSeedPart thresholdMethod 3 9 exLong ["a", "b", "c", "d", "e", "f"] (fun _ => 1) 2 (1 / 10) none none []).1.map
    (fun f => f.entries.map Prod.snd)) = .ok ["a", "a", "b", "b", "c", "c", "d", "d", "e", "e", "f", "f"] ∧
    ((recursiveSeedPart thresholdMethod 3 9 exLong ["a", "b", "c", "d", "e", "f"] (fun _ => 1) 2 (1 / 10) (some 4) none []).1.map
    (fun f => f.entries.map Prod.snd)) = .ok ["a", "a", "b", "b", "c", "c", "d", "d", "e", "e", "f", "f"] := by
  decide +kernel

/-- a spanning tree function for trees: the graph itself -/
def treeSpan : Graph ℕ → M (List ℕ) (WTree ℕ) := fun G =>
  if G.edges.card + 1 = G.nodes.card then pure ⟨G, fun _ _ => none⟩ else M.raise .runtimeError

theorem treeSpan_ok : SpanOk treeSpan := by
  intro G w t w' hG hc h
  unfold treeSpan at h
  by_cases hcard : G.edges.card + 1 = G.nodes.card
  · rw [if_pos hcard] at h
    cases h
    exact Or.inl ⟨⟨hG, hc, hcard⟩, rfl, fun _ _ h => h⟩
  · rw [if_neg hcard] at h
    cases h

/-- the hypotheses of C44_default (and C36_default) met by a run that returns: three districts of a path with six nodes -/
example : ((recursiveSeedPart (bipMethod tapeRand treeSpan 1 (some 5) (fun _ _ => (none : Option ℕ)) none false 9 (fun _ => 1)) 3 9
      exLine ["a", "b", "c"] (fun _ => 1) 2 (1 / 10) none none []).1.isOk) = true ∧
    ((recursiveTreePart (bipMethod tapeRand treeSpan 1 (some 5) (fun _ _ => (none : Option ℕ)) none false 9 (fun _ => 1)) 
      exLine ["a", "b", "c"] (fun _ => 1) 2 (1 / 2) []).1.isOk) = true := by
  decide +kernel

end GC

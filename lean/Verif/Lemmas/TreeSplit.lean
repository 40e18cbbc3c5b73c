import Verif.Props.Spanning
import Verif.Props.TreeCuts
import Verif.Lemmas.Contiguity

/-!
# Counting spanning trees of a union

The spanning trees of `G[A ∪ B]` with exactly one edge between `A` and `B` correspond to a spanning tree of `G[A]`, one of `G[B]` and an edge
between `A` and `B`.  Nothing here mentions the modelled code, except the last section on the balanced cuts of a tree.
-/

set_option linter.unusedSectionVars false
set_option autoImplicit false

namespace GC

variable {V : Type} [LinearOrder V]

open Classical in
/-- The spanning trees of a graph, as sets of its edges -/
noncomputable def treeSets (G : Graph V) : Finset (Finset (V × V)) := G.edges.powerset.filter (fun E => IsTree ⟨G.nodes, E⟩)

/-- The number of spanning trees of the subgraph induced by `s` -/
noncomputable def numTrees (G : Graph V) (s : Finset V) : ℕ := (treeSets (G.subgraph s)).card

/-- The edges between two sets of nodes -/
def seamOf (G : Graph V) (A B : Finset V) : Finset (V × V) := G.edges.filter (fun e => (e.1 ∈ A ∧ e.2 ∈ B) ∨ (e.1 ∈ B ∧ e.2 ∈ A))

theorem mem_seamOf {G : Graph V} {A B : Finset V} {e : V × V} :
    e ∈ seamOf G A B ↔ e ∈ G.edges ∧ ((e.1 ∈ A ∧ e.2 ∈ B) ∨ (e.1 ∈ B ∧ e.2 ∈ A)) := by
  unfold seamOf; rw [Finset.mem_filter]

theorem seamOf_comm (G : Graph V) (A B : Finset V) : seamOf G A B = seamOf G B A := by
  ext e; rw [mem_seamOf, mem_seamOf, or_comm]

theorem subgraph_nodes {G : Graph V} {s : Finset V} (hs : s ⊆ G.nodes) : (G.subgraph s).nodes = s := Finset.inter_eq_right.2 hs

open Classical in
theorem mem_treeSets {G : Graph V} {s : Finset V} (hs : s ⊆ G.nodes) {E : Finset (V × V)} :
    E ∈ treeSets (G.subgraph s) ↔ (∀ e ∈ E, e ∈ G.edges ∧ e.1 ∈ s ∧ e.2 ∈ s) ∧ IsTree ⟨s, E⟩ := by
  unfold treeSets
  rw [Finset.mem_filter, Finset.mem_powerset, subgraph_nodes hs]
  refine and_congr ⟨fun h e he => ?_, fun h e he => ?_⟩ Iff.rfl
  · exact Finset.mem_filter.1 (h he)
  · exact Finset.mem_filter.2 (h e he)

open Classical in
/-- A spanning tree in the sense of `IsSpanningTree` has the edges of exactly one of the sets in `treeSets`. -/
theorem treeSets_complete {G : Graph V} (hG : G.WF) {T : Graph V} (hT : IsSpanningTree T G) :
    ∃ E ∈ treeSets G, ∀ u v, Graph.Adj ⟨G.nodes, E⟩ u v ↔ T.Adj u v := by
  have hadj : ∀ u v, Graph.Adj ⟨G.nodes, G.edges.filter (fun e => T.Adj e.1 e.2)⟩ u v ↔ T.Adj u v := by
    intro u v
    constructor
    · rintro (h | h)
      · exact (Finset.mem_filter.1 h).2
      · exact (Finset.mem_filter.1 h).2.symm
    · intro h
      rcases hT.edges u v h with he | he
      · exact .inl (Finset.mem_filter.2 ⟨he, h⟩)
      · exact .inr (Finset.mem_filter.2 ⟨he, h.symm⟩)
  refine ⟨G.edges.filter (fun e => T.Adj e.1 e.2), ?_, hadj⟩
  unfold treeSets
  rw [Finset.mem_filter]
  refine ⟨Finset.mem_powerset.2 (Finset.filter_subset _ _), ?_, ?_, ?_⟩
  · exact ⟨fun e he => hG.fst_mem e (Finset.mem_filter.1 he).1, fun e he => hG.snd_mem e (Finset.mem_filter.1 he).1,
      fun e he hne h => hG.asymm e (Finset.mem_filter.1 he).1 hne (Finset.mem_filter.1 h).1⟩
  · have := hT.tree.conn
    rw [hT.nodes] at this
    exact (connectedOn_congr (fun u _ v _ => hadj u v)).2 this
  · show (G.edges.filter (fun e => T.Adj e.1 e.2)).card + 1 = G.nodes.card
    rw [← hT.nodes, ← hT.tree.card]
    congr 1
    refine Finset.card_bij (fun e _ => if e ∈ T.edges then e else (e.2, e.1)) ?_ ?_ ?_
    · intro e he
      beta_reduce
      split_ifs with h
      · exact h
      · rcases (Finset.mem_filter.1 he).2 with h' | h'
        · exact absurd h' h
        · exact h'
    · intro e he e' he' heq
      have h1 := (Finset.mem_filter.1 he).1
      have h1' := (Finset.mem_filter.1 he').1
      beta_reduce at heq
      split_ifs at heq with h h' h'
      · exact heq
      · by_cases hne : e'.1 = e'.2
        · rw [heq]; exact Prod.ext hne.symm hne
        · exact absurd (heq ▸ h1) (hG.asymm e' h1' hne)
      · by_cases hne : e.1 = e.2
        · rw [← heq]; exact Prod.ext hne hne.symm
        · exact absurd (heq ▸ h1' : (e.2, e.1) ∈ G.edges) (hG.asymm e h1 hne)
      · exact Prod.ext (Prod.ext_iff.1 heq).2 (Prod.ext_iff.1 heq).1
    · intro e he
      have ha : T.Adj e.1 e.2 := .inl he
      rcases hT.edges _ _ ha with h | h
      · exact ⟨e, Finset.mem_filter.2 ⟨h, ha⟩, if_pos he⟩
      · refine ⟨(e.2, e.1), Finset.mem_filter.2 ⟨h, ha.symm⟩, ?_⟩
        by_cases hne : e.1 = e.2
        · have heq : (e.2, e.1) = e := Prod.ext hne.symm hne
          simp only [heq, if_pos he]
        · exact if_neg (hT.tree.wf.asymm e he hne)

section split
variable {G : Graph V} {A B : Finset V}

/-- adding an edge between the two trees gives a tree -/
theorem isTree_join (hG : G.WF) (hAB : Disjoint A B) (hA : A ⊆ G.nodes) (hB : B ⊆ G.nodes) {E1 E2 : Finset (V × V)} {e : V × V}
    (h1 : E1 ∈ treeSets (G.subgraph A)) (h2 : E2 ∈ treeSets (G.subgraph B)) (he : e ∈ seamOf G A B) :
    insert e (E1 ∪ E2) ∈ treeSets (G.subgraph (A ∪ B)) ∧ insert e (E1 ∪ E2) ∩ seamOf G A B = {e} ∧
    (insert e (E1 ∪ E2)).filter (fun x => x.1 ∈ A ∧ x.2 ∈ A) = E1 ∧ (insert e (E1 ∪ E2)).filter (fun x => x.1 ∈ B ∧ x.2 ∈ B) = E2 := by
  obtain ⟨s1, t1⟩ := (mem_treeSets hA).1 h1
  obtain ⟨s2, t2⟩ := (mem_treeSets hB).1 h2
  obtain ⟨heG, hends⟩ := mem_seamOf.1 he
  have hd : ∀ x, x ∈ A → x ∉ B := fun _ hx => Finset.disjoint_left.1 hAB hx
  have hinter : insert e (E1 ∪ E2) ∩ seamOf G A B = {e} := by
    ext x
    rw [Finset.mem_inter, Finset.mem_insert, Finset.mem_union, Finset.mem_singleton]
    constructor
    · rintro ⟨rfl | h | h, hx⟩
      · rfl
      · obtain ⟨-, a1, a2⟩ := s1 x h
        rcases (mem_seamOf.1 hx).2 with ⟨-, b⟩ | ⟨b, -⟩
        · exact absurd b (hd _ a2)
        · exact absurd b (hd _ a1)
      · obtain ⟨-, a1, a2⟩ := s2 x h
        rcases (mem_seamOf.1 hx).2 with ⟨b, -⟩ | ⟨-, b⟩
        · exact absurd a1 (hd _ b)
        · exact absurd a2 (hd _ b)
    · rintro rfl
      exact ⟨.inl rfl, he⟩
  have hf1 : (insert e (E1 ∪ E2)).filter (fun x => x.1 ∈ A ∧ x.2 ∈ A) = E1 := by
    ext x
    rw [Finset.mem_filter, Finset.mem_insert, Finset.mem_union]
    constructor
    · rintro ⟨rfl | h | h, a1, a2⟩
      · rcases hends with ⟨-, b⟩ | ⟨b, -⟩
        · exact absurd b (hd _ a2)
        · exact absurd b (hd _ a1)
      · exact h
      · exact absurd (s2 x h).2.1 (hd _ a1)
    · intro h
      exact ⟨.inr (.inl h), (s1 x h).2⟩
  have hf2 : (insert e (E1 ∪ E2)).filter (fun x => x.1 ∈ B ∧ x.2 ∈ B) = E2 := by
    ext x
    rw [Finset.mem_filter, Finset.mem_insert, Finset.mem_union]
    constructor
    · rintro ⟨rfl | h | h, a1, a2⟩
      · rcases hends with ⟨b, -⟩ | ⟨-, b⟩
        · exact absurd a1 (hd _ b)
        · exact absurd a2 (hd _ b)
      · exact absurd a1 (hd _ (s1 x h).2.1)
      · exact h
    · intro h
      exact ⟨.inr (.inr h), (s2 x h).2⟩
  refine ⟨(mem_treeSets (Finset.union_subset hA hB)).2 ⟨?_, ?_, ?_, ?_⟩, hinter, hf1, hf2⟩
  · intro x hx
    rw [Finset.mem_insert, Finset.mem_union] at hx
    rw [Finset.mem_union, Finset.mem_union]
    rcases hx with rfl | h | h
    · exact ⟨heG, by tauto, by tauto⟩
    · obtain ⟨a0, a1, a2⟩ := s1 x h
      exact ⟨a0, .inl a1, .inl a2⟩
    · obtain ⟨a0, a1, a2⟩ := s2 x h
      exact ⟨a0, .inr a1, .inr a2⟩
  · have hsub : ∀ x ∈ insert e (E1 ∪ E2), x ∈ G.edges ∧ x.1 ∈ A ∪ B ∧ x.2 ∈ A ∪ B := by
      intro x hx
      rw [Finset.mem_insert, Finset.mem_union] at hx
      rw [Finset.mem_union, Finset.mem_union]
      rcases hx with rfl | h | h
      · exact ⟨heG, by tauto, by tauto⟩
      · obtain ⟨a0, a1, a2⟩ := s1 x h
        exact ⟨a0, .inl a1, .inl a2⟩
      · obtain ⟨a0, a1, a2⟩ := s2 x h
        exact ⟨a0, .inr a1, .inr a2⟩
    exact ⟨fun x hx => (hsub x hx).2.1, fun x hx => (hsub x hx).2.2, fun x hx hne h => hG.asymm x (hsub x hx).1 hne (hsub _ h).1⟩
  · have mono : ∀ (E : Finset (V × V)) (S : Finset V), E ⊆ insert e (E1 ∪ E2) → ConnectedOn ⟨S, E⟩ S →
        ConnectedOn (⟨A ∪ B, insert e (E1 ∪ E2)⟩ : Graph V) S := by
      intro E S hE h
      refine ⟨h.1, fun u hu v hv => Relation.ReflTransGen.mono ?_ _ _ (h.2 u hu v hv)⟩
      rintro x y ⟨hxy, hx, hy⟩
      refine ⟨?_, hx, hy⟩
      rcases hxy with hxy | hxy
      · exact .inl (hE hxy)
      · exact .inr (hE hxy)
    have c1 := mono E1 A (fun x hx => Finset.mem_insert_of_mem (Finset.mem_union_left _ hx)) t1.conn
    have c2 := mono E2 B (fun x hx => Finset.mem_insert_of_mem (Finset.mem_union_right _ hx)) t2.conn
    have hadj : Graph.Adj (⟨A ∪ B, insert e (E1 ∪ E2)⟩ : Graph V) e.1 e.2 := .inl (Finset.mem_insert_self _ _)
    show ConnectedOn _ (A ∪ B)
    rcases hends with ⟨a1, a2⟩ | ⟨a1, a2⟩
    · exact connectedOn_join c1 c2 a1 a2 hadj
    · exact connectedOn_join c1 c2 a2 a1 hadj.symm
  · show (insert e (E1 ∪ E2)).card + 1 = (A ∪ B).card
    have hn : e ∉ E1 ∪ E2 := by
      rw [Finset.mem_union, not_or]
      constructor
      · intro h
        obtain ⟨-, a1, a2⟩ := s1 e h
        rcases hends with ⟨-, b⟩ | ⟨b, -⟩
        · exact hd _ a2 b
        · exact hd _ a1 b
      · intro h
        obtain ⟨-, a1, a2⟩ := s2 e h
        rcases hends with ⟨b, -⟩ | ⟨-, b⟩
        · exact hd _ b a1
        · exact hd _ b a2
    have hdE : Disjoint E1 E2 := by
      rw [Finset.disjoint_left]
      intro x h h'
      exact hd _ (s1 x h).2.1 (s2 x h').2.1
    have e1 := t1.card
    have e2 := t2.card
    rw [Finset.card_insert_of_notMem hn, Finset.card_union_of_disjoint hdE, Finset.card_union_of_disjoint hAB]
    simp only at e1 e2
    omega
where
  connectedOn_join {G : Graph V} {s t : Finset V} (hs : ConnectedOn G s) (ht : ConnectedOn G t) {u v : V} (hu : u ∈ s)
      (hv : v ∈ t) (ha : G.Adj u v) : ConnectedOn G (s ∪ t) := by
    refine connectedOn_of_root (r := u) (Finset.mem_union_left _ hu) (fun x hx => ?_)
    rcases Finset.mem_union.1 hx with hx | hx
    · exact (hs.2 u hu x hx).mono Finset.subset_union_left
    · exact ReachIn.trans (Relation.ReflTransGen.single ⟨ha, Finset.mem_union_left _ hu, Finset.mem_union_right _ hv⟩)
        ((ht.2 v hv x hx).mono Finset.subset_union_right)

/-- a tree with a single edge between the two sets is connected inside each of them -/
theorem connected_part (hAB : Disjoint A B) (hne : A.Nonempty) {E : Finset (V × V)} {x y : V} (hx : x ∈ A) (hy : y ∈ B)
    (hsub : ∀ e ∈ E, e.1 ∈ A ∪ B ∧ e.2 ∈ A ∪ B) (hconn : ConnectedOn ⟨A ∪ B, E⟩ (A ∪ B))
    (huniq : ∀ a ∈ A, ∀ b ∈ B, Graph.Adj ⟨A ∪ B, E⟩ a b → a = x ∧ b = y) :
    ConnectedOn ⟨A, E.filter (fun e => e.1 ∈ A ∧ e.2 ∈ A)⟩ A := by
  have hd : ∀ x, x ∈ A → x ∉ B := fun _ hx => Finset.disjoint_left.1 hAB hx
  refine ⟨hne, fun u hu v hv => ?_⟩
  have hreach := hconn.2 u (Finset.mem_union_left _ hu) v (Finset.mem_union_left _ hv)
  have key : (v ∈ A ∧ ReachIn ⟨A, E.filter (fun e => e.1 ∈ A ∧ e.2 ∈ A)⟩ A u v) ∨
      (v ∈ B ∧ ReachIn ⟨A, E.filter (fun e => e.1 ∈ A ∧ e.2 ∈ A)⟩ A u x) := by
    refine closed_of_reach (C := fun w => (w ∈ A ∧ ReachIn ⟨A, E.filter (fun e => e.1 ∈ A ∧ e.2 ∈ A)⟩ A u w) ∨
      (w ∈ B ∧ ReachIn ⟨A, E.filter (fun e => e.1 ∈ A ∧ e.2 ∈ A)⟩ A u x)) hreach (.inl ⟨hu, Relation.ReflTransGen.refl⟩) ?_
    rintro a b ha ⟨hab, -, hbm⟩
    rcases ha with ⟨ha, hr⟩ | ⟨ha, hr⟩
    · rcases Finset.mem_union.1 hbm with hb | hb
      · refine .inl ⟨hb, hr.tail ⟨?_, ha, hb⟩⟩
        rcases hab with h | h
        · exact .inl (Finset.mem_filter.2 ⟨h, ha, hb⟩)
        · exact .inr (Finset.mem_filter.2 ⟨h, hb, ha⟩)
      · obtain ⟨rfl, rfl⟩ := huniq a ha b hb hab
        exact .inr ⟨hb, hr⟩
    · rcases Finset.mem_union.1 hbm with hb | hb
      · obtain ⟨rfl, rfl⟩ := huniq b hb a ha hab.symm
        exact .inl ⟨hb, hr⟩
      · exact .inr ⟨hb, hr⟩
  rcases key with h | h
  · exact h.2
  · exact absurd h.1 (hd _ hv)

/-- the endpoints of the only edge between the sets -/
theorem seam_unique (hG : G.WF) (hAB : Disjoint A B) {E : Finset (V × V)} (hE : ∀ e ∈ E, e ∈ G.edges) {e : V × V} (he : E ∩ seamOf G A B = {e}) :
    e ∈ E ∧ e ∈ seamOf G A B ∧ ∃ x ∈ A, ∃ y ∈ B, (e = (x, y) ∨ e = (y, x)) ∧
      ∀ a ∈ A, ∀ b ∈ B, Graph.Adj (⟨A ∪ B, E⟩ : Graph V) a b → a = x ∧ b = y := by
  have hd : ∀ x, x ∈ A → x ∉ B := fun _ hx => Finset.disjoint_left.1 hAB hx
  have hmem : e ∈ E ∩ seamOf G A B := he ▸ Finset.mem_singleton_self e
  rw [Finset.mem_inter] at hmem
  refine ⟨hmem.1, hmem.2, ?_⟩
  have huniq : ∀ f ∈ E, f ∈ seamOf G A B → f = e := fun f h h' => Finset.mem_singleton.1 (he ▸ Finset.mem_inter.2 ⟨h, h'⟩)
  rcases (mem_seamOf.1 hmem.2).2 with ⟨h1, h2⟩ | ⟨h1, h2⟩
  · refine ⟨e.1, h1, e.2, h2, .inl rfl, fun a ha b hb hab => ?_⟩
    rcases hab with h | h
    · have := huniq (a, b) h (mem_seamOf.2 ⟨hE _ h, .inl ⟨ha, hb⟩⟩)
      rw [← this]
      exact ⟨rfl, rfl⟩
    · have := huniq (b, a) h (mem_seamOf.2 ⟨hE _ h, .inr ⟨hb, ha⟩⟩)
      rw [← this] at h1
      exact absurd hb (hd _ h1)
  · refine ⟨e.2, h2, e.1, h1, .inr rfl, fun a ha b hb hab => ?_⟩
    rcases hab with h | h
    · have := huniq (a, b) h (mem_seamOf.2 ⟨hE _ h, .inl ⟨ha, hb⟩⟩)
      rw [← this] at h2
      exact absurd hb (hd _ h2)
    · have := huniq (b, a) h (mem_seamOf.2 ⟨hE _ h, .inr ⟨hb, ha⟩⟩)
      rw [← this]
      exact ⟨rfl, rfl⟩

/-- removing the only edge between the sets leaves two trees -/
theorem isTree_split (hG : G.WF) (hAB : Disjoint A B) (hA : A ⊆ G.nodes) (hB : B ⊆ G.nodes) (hA0 : A.Nonempty) (hB0 : B.Nonempty) {E : Finset (V × V)}
    (hE : E ∈ treeSets (G.subgraph (A ∪ B))) {e : V × V} (he : E ∩ seamOf G A B = {e}) :
    E.filter (fun x => x.1 ∈ A ∧ x.2 ∈ A) ∈ treeSets (G.subgraph A) ∧ E.filter (fun x => x.1 ∈ B ∧ x.2 ∈ B) ∈ treeSets (G.subgraph B) ∧
    E = insert e (E.filter (fun x => x.1 ∈ A ∧ x.2 ∈ A) ∪ E.filter (fun x => x.1 ∈ B ∧ x.2 ∈ B)) := by
  obtain ⟨hs, ht⟩ := (mem_treeSets (Finset.union_subset hA hB)).1 hE
  have hd : ∀ x, x ∈ A → x ∉ B := fun _ hx => Finset.disjoint_left.1 hAB hx
  obtain ⟨heE, heS, x, hx, y, hy, hexy, huniq⟩ := seam_unique hG hAB (fun f hf => (hs f hf).1) he
  have c1 := connected_part hAB hA0 hx hy (fun f hf => (hs f hf).2) ht.conn huniq
  have c2 : ConnectedOn ⟨B, E.filter (fun e => e.1 ∈ B ∧ e.2 ∈ B)⟩ B := by
    have hc : ConnectedOn ⟨B ∪ A, E⟩ (B ∪ A) := by
      have := ht.conn
      simp only at this
      rw [Finset.union_comm] at this
      exact this
    refine connected_part hAB.symm hB0 hy hx (fun f hf => ?_) hc (fun a ha b hb hab => ?_)
    · rw [Finset.union_comm]; exact (hs f hf).2
    · exact (huniq b hb a ha hab.symm).symm
  have hsplit : E = insert e (E.filter (fun x => x.1 ∈ A ∧ x.2 ∈ A) ∪ E.filter (fun x => x.1 ∈ B ∧ x.2 ∈ B)) := by
    ext f
    rw [Finset.mem_insert, Finset.mem_union, Finset.mem_filter, Finset.mem_filter]
    constructor
    · intro hf
      obtain ⟨f0, f1, f2⟩ := hs f hf
      have hseam : f ∈ seamOf G A B → f = e := fun h => Finset.mem_singleton.1 (he ▸ Finset.mem_inter.2 ⟨hf, h⟩)
      rcases Finset.mem_union.1 f1 with f1 | f1 <;> rcases Finset.mem_union.1 f2 with f2 | f2
      · exact .inr (.inl ⟨hf, f1, f2⟩)
      · exact .inl (hseam (mem_seamOf.2 ⟨f0, .inl ⟨f1, f2⟩⟩))
      · exact .inl (hseam (mem_seamOf.2 ⟨f0, .inr ⟨f1, f2⟩⟩))
      · exact .inr (.inr ⟨hf, f1, f2⟩)
    · rintro (rfl | h | h)
      · exact heE
      · exact h.1
      · exact h.1
  have hn : e ∉ E.filter (fun x => x.1 ∈ A ∧ x.2 ∈ A) ∪ E.filter (fun x => x.1 ∈ B ∧ x.2 ∈ B) := by
    rw [Finset.mem_union, Finset.mem_filter, Finset.mem_filter, not_or]
    constructor
    · rintro ⟨-, h1, h2⟩
      rcases (mem_seamOf.1 heS).2 with ⟨-, b⟩ | ⟨b, -⟩
      · exact hd _ h2 b
      · exact hd _ h1 b
    · rintro ⟨-, h1, h2⟩
      rcases (mem_seamOf.1 heS).2 with ⟨b, -⟩ | ⟨-, b⟩
      · exact hd _ b h1
      · exact hd _ b h2
  have hdE : Disjoint (E.filter (fun x => x.1 ∈ A ∧ x.2 ∈ A)) (E.filter (fun x => x.1 ∈ B ∧ x.2 ∈ B)) := by
    rw [Finset.disjoint_left]
    intro f h h'
    exact hd _ (Finset.mem_filter.1 h).2.1 (Finset.mem_filter.1 h').2.1
  have hcard := congrArg Finset.card hsplit
  rw [Finset.card_insert_of_notMem hn, Finset.card_union_of_disjoint hdE] at hcard
  have htc := ht.card
  simp only at htc
  rw [Finset.card_union_of_disjoint hAB] at htc
  have k1 := card_le_of_connected c1
  have k2 := card_le_of_connected c2
  simp only [Finset.filter_filter, and_self] at k1 k2
  have wf : ∀ S : Finset V, Graph.WF (⟨S, E.filter (fun x => x.1 ∈ S ∧ x.2 ∈ S)⟩ : Graph V) := by
    intro S
    refine ⟨fun f hf => (Finset.mem_filter.1 hf).2.1, fun f hf => (Finset.mem_filter.1 hf).2.2, fun f hf hne h => ?_⟩
    exact ht.wf.asymm f (Finset.mem_filter.1 hf).1 hne (Finset.mem_filter.1 h).1
  refine ⟨(mem_treeSets hA).2 ⟨fun f hf => ⟨(hs f (Finset.mem_filter.1 hf).1).1, (Finset.mem_filter.1 hf).2⟩, wf A, c1, ?_⟩,
    (mem_treeSets hB).2 ⟨fun f hf => ⟨(hs f (Finset.mem_filter.1 hf).1).1, (Finset.mem_filter.1 hf).2⟩, wf B, c2, ?_⟩, hsplit⟩
  · show (E.filter (fun x => x.1 ∈ A ∧ x.2 ∈ A)).card + 1 = A.card
    omega
  · show (E.filter (fun x => x.1 ∈ B ∧ x.2 ∈ B)).card + 1 = B.card
    omega

/-- **Counting**: the spanning trees of `G[A ∪ B]` with exactly one edge between `A` and `B` -/
theorem card_trees_one_seam (hG : G.WF) (hAB : Disjoint A B) (hA : A ⊆ G.nodes) (hB : B ⊆ G.nodes) (hA0 : A.Nonempty) (hB0 : B.Nonempty) :
    ((treeSets (G.subgraph (A ∪ B))).filter (fun E => (E ∩ seamOf G A B).card = 1)).card =
      numTrees G A * numTrees G B * (seamOf G A B).card := by
  unfold numTrees
  rw [← Finset.card_product, ← Finset.card_product]
  symm
  refine Finset.card_bij (fun x _ => insert x.2 (x.1.1 ∪ x.1.2)) ?_ ?_ ?_
  · rintro ⟨⟨E1, E2⟩, e⟩ h
    rw [Finset.mem_product, Finset.mem_product] at h
    obtain ⟨k1, k2, -, -⟩ := isTree_join hG hAB hA hB h.1.1 h.1.2 h.2
    rw [Finset.mem_filter]
    exact ⟨k1, by rw [k2]; rfl⟩
  · rintro ⟨⟨E1, E2⟩, e⟩ h ⟨⟨E1', E2'⟩, e'⟩ h' heq
    rw [Finset.mem_product, Finset.mem_product] at h h'
    obtain ⟨-, k2, k3, k4⟩ := isTree_join hG hAB hA hB h.1.1 h.1.2 h.2
    obtain ⟨-, k2', k3', k4'⟩ := isTree_join hG hAB hA hB h'.1.1 h'.1.2 h'.2
    simp only at heq k2 k3 k4 k2' k3' k4'
    rw [heq] at k2 k3 k4
    have he : e = e' := Finset.singleton_injective (k2.symm.trans k2')
    have h1 : E1 = E1' := k3.symm.trans k3'
    have h2 : E2 = E2' := k4.symm.trans k4'
    rw [he, h1, h2]
  · intro E hE
    rw [Finset.mem_filter, Finset.card_eq_one] at hE
    obtain ⟨hE, e, he⟩ := hE
    obtain ⟨k1, k2, k3⟩ := isTree_split hG hAB hA hB hA0 hB0 hE he
    refine ⟨((E.filter (fun x => x.1 ∈ A ∧ x.2 ∈ A), E.filter (fun x => x.1 ∈ B ∧ x.2 ∈ B)), e), ?_, k3.symm⟩
    rw [Finset.mem_product, Finset.mem_product]
    exact ⟨⟨k1, k2⟩, (Finset.mem_inter.1 (he ▸ Finset.mem_singleton_self e)).2⟩

/-! ### The sides of an edge -/

/-- if `A` is a side of an edge of the tree, that edge is the only one between `A` and the rest -/
theorem seam_of_side (hG : G.WF) (hAB : Disjoint A B) (hA : A ⊆ G.nodes) (hB : B ⊆ G.nodes) {E : Finset (V × V)}
    (hE : E ∈ treeSets (G.subgraph (A ∪ B))) {u v : V} (huv : Graph.Adj (⟨A ∪ B, E⟩ : Graph V) u v) (hside : IsSide ⟨A ∪ B, E⟩ u v A)
    (hv : v ∉ A) : ∃ e, E ∩ seamOf G A B = {e} ∧ (e = (u, v) ∨ e = (v, u)) := by
  obtain ⟨hs, ht⟩ := (mem_treeSets (Finset.union_subset hA hB)).1 hE
  have hd : ∀ x, x ∈ A → x ∉ B := fun _ hx => Finset.disjoint_left.1 hAB hx
  have hmu := ht.wf.mem_of_adj huv
  have huA : u ∈ A := (hside u).2 ⟨hmu.1, Relation.ReflTransGen.refl⟩
  have hvB : v ∈ B := by
    rcases Finset.mem_union.1 hmu.2 with h | h
    · exact absurd h hv
    · exact h
  have cross : ∀ a ∈ A, ∀ b ∈ B, Graph.Adj (⟨A ∪ B, E⟩ : Graph V) a b → a = u ∧ b = v := by
    intro a ha b hb hab
    by_contra hne
    obtain ⟨ham, har⟩ := (hside a).1 ha
    have hbm : b ∈ A ∪ B := Finset.mem_union_right _ hb
    have hbA : b ∈ A := by
      refine (hside b).2 ⟨hbm, har.tail ⟨Graph.cut_adj.2 ⟨hab, hne, ?_⟩, ham, hbm⟩⟩
      rintro ⟨rfl, rfl⟩
      exact hd _ ha hvB
    exact hd _ hbA hb
  have hone : ∀ e, e ∈ E ∩ seamOf G A B → e = (u, v) ∨ e = (v, u) := by
    intro e he
    rw [Finset.mem_inter, mem_seamOf] at he
    rcases he.2.2 with ⟨h1, h2⟩ | ⟨h1, h2⟩
    · have := cross _ h1 _ h2 (.inl he.1)
      exact .inl (Prod.ext this.1 this.2)
    · have := cross _ h2 _ h1 (.inr he.1)
      exact .inr (Prod.ext this.2 this.1)
  have huv' : u ≠ v := fun h => hd _ huA (h ▸ hvB)
  rcases huv with h | h
  · have hne : u ≠ v := huv'
    refine ⟨(u, v), ?_, .inl rfl⟩
    ext e
    rw [Finset.mem_singleton]
    constructor
    · intro he
      rcases hone e he with h' | h'
      · exact h'
      · exact absurd (h' ▸ (Finset.mem_inter.1 he).1) (ht.wf.asymm _ h hne)
    · rintro rfl
      exact Finset.mem_inter.2 ⟨h, mem_seamOf.2 ⟨(hs _ h).1, .inl ⟨huA, hvB⟩⟩⟩
  · have hne : v ≠ u := huv'.symm
    refine ⟨(v, u), ?_, .inr rfl⟩
    ext e
    rw [Finset.mem_singleton]
    constructor
    · intro he
      rcases hone e he with h' | h'
      · exact absurd (h' ▸ (Finset.mem_inter.1 he).1) (ht.wf.asymm _ h hne)
      · exact h'
    · rintro rfl
      exact Finset.mem_inter.2 ⟨h, mem_seamOf.2 ⟨(hs _ h).1, .inr ⟨hvB, huA⟩⟩⟩

/-- if there is a single edge between `A` and `B`, these are its sides -/
theorem side_of_seam (hG : G.WF) (hAB : Disjoint A B) (hA : A ⊆ G.nodes) (hB : B ⊆ G.nodes) (hA0 : A.Nonempty) {E : Finset (V × V)}
    (hE : E ∈ treeSets (G.subgraph (A ∪ B))) {x y : V} (hx : x ∈ A) (hy : y ∈ B)
    (huniq : ∀ a ∈ A, ∀ b ∈ B, Graph.Adj (⟨A ∪ B, E⟩ : Graph V) a b → a = x ∧ b = y) : IsSide ⟨A ∪ B, E⟩ x y A := by
  obtain ⟨hs, ht⟩ := (mem_treeSets (Finset.union_subset hA hB)).1 hE
  have hd : ∀ x, x ∈ A → x ∉ B := fun _ hx => Finset.disjoint_left.1 hAB hx
  have c1 := connected_part hAB hA0 hx hy (fun f hf => (hs f hf).2) ht.conn huniq
  intro w
  constructor
  · intro hw
    refine ⟨Finset.mem_union_left _ hw, Relation.ReflTransGen.mono ?_ _ _ (c1.2 x hx w hw)⟩
    rintro a b ⟨hab, ha, hb⟩
    refine ⟨Graph.cut_adj.2 ⟨?_, ?_, ?_⟩, Finset.mem_union_left _ ha, Finset.mem_union_left _ hb⟩
    · rcases hab with h | h
      · exact .inl (Finset.mem_filter.1 h).1
      · exact .inr (Finset.mem_filter.1 h).1
    · rintro ⟨-, rfl⟩
      exact hd _ hb hy
    · rintro ⟨rfl, -⟩
      exact hd _ ha hy
  · rintro ⟨-, hr⟩
    refine closed_of_reach (C := fun z => z ∈ A) hr hx (fun a b ha hab => ?_)
    rcases Finset.mem_union.1 hab.2.2 with hb | hb
    · exact hb
    · have hc := Graph.cut_adj.1 hab.1
      exact absurd (huniq a ha b hb hc.1) hc.2.1

end split

end GC

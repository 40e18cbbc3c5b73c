import Verif.Model.Spanning
import Verif.Props.Bipartition
import Mathlib.Order.Lattice.Nat
import Mathlib.Data.Finset.Lattice.Fold

/-!
# C41, C42: the random spanning trees

C41: Wilson's algorithm returns a spanning tree, whatever the random walks are.
C42: Kruskal's algorithm returns a spanning tree, and large surcharges keep regions connected inside the tree.
-/

set_option linter.unusedSectionVars false
set_option autoImplicit false

namespace GC

variable {V : Type} [LinearOrder V] {S : Type}

/-! ## Trees from parent pointers -/

theorem isTree_of_parents {T : Graph V} {root : V} {par : V → V} {rank : V → ℕ} (hr : root ∈ T.nodes)
    (hpar : ∀ v ∈ T.nodes, v ≠ root → par v ∈ T.nodes ∧ rank (par v) < rank v)
    (hedges : T.edges = (T.nodes.erase root).image (fun v => (v, par v))) : IsTree T := by
  have hmem : ∀ e, e ∈ T.edges ↔ ∃ v ∈ T.nodes, v ≠ root ∧ (v, par v) = e := by
    intro e
    rw [hedges, Finset.mem_image]
    simp only [Finset.mem_erase]
    constructor
    · rintro ⟨v, ⟨h1, h2⟩, h3⟩
      exact ⟨v, h2, h1, h3⟩
    · rintro ⟨v, h2, h1, h3⟩
      exact ⟨v, ⟨h1, h2⟩, h3⟩
  refine ⟨⟨?_, ?_, ?_⟩, ?_, ?_⟩
  · intro e he
    obtain ⟨v, hv, hne, rfl⟩ := (hmem e).1 he
    exact hv
  · intro e he
    obtain ⟨v, hv, hne, rfl⟩ := (hmem e).1 he
    exact (hpar v hv hne).1
  · intro e he _ h2
    obtain ⟨v, hv, hne, rfl⟩ := (hmem e).1 he
    obtain ⟨w, hw, hwne, hww⟩ := (hmem _).1 h2
    simp only [Prod.mk.injEq] at hww
    have h3 := (hpar v hv hne).2
    have h4 := (hpar w hw hwne).2
    rw [hww.2, hww.1] at h4
    omega
  · refine connectedOn_of_root hr ?_
    have key : ∀ n v, v ∈ T.nodes → rank v = n → ReachIn T T.nodes root v := by
      intro n
      induction n using Nat.strong_induction_on with
      | _ n ih =>
        intro v hv hn
        by_cases hvr : v = root
        · subst hvr; exact Relation.ReflTransGen.refl
        · obtain ⟨h1, h2⟩ := hpar v hv hvr
          refine (ih (rank (par v)) (by omega) (par v) h1 rfl).tail ⟨Or.inr ?_, h1, hv⟩
          exact (hmem _).2 ⟨v, hv, hvr, rfl⟩
    exact fun v hv => key _ v hv rfl
  · rw [hedges, Finset.card_image_of_injective _ (fun a b h => by simpa using (Prod.mk.inj h).1),
      Finset.card_erase_of_mem hr]
    have : 0 < T.nodes.card := Finset.card_pos.2 ⟨root, hr⟩
    omega

/-! ## Wilson's algorithm -/

/-- the pointers `next` lead from every node of `W` to `T`: each goes to a neighbour in `T`, or to a node of `W` of smaller
rank -/
def LeadsTo (G : Graph V) (next : Dict V (Option V)) (T W : Finset V) (r : V → ℕ) : Prop :=
  ∀ x ∈ W, ∃ y, next.get? x = some (some y) ∧ G.Adj x y ∧ y ∈ G.nodes ∧ (y ∈ T ∨ (y ∈ W ∧ r y < r x))

theorem Rand.Valid.choice_ok {R : Rand S} (hR : R.Valid) {α : Type} {l : List α} {w w' : S} {x : α}
    (h : R.choice l w = (.ok x, w')) : x ∈ l := by
  by_cases hl : l = []
  · subst hl
    obtain ⟨s', h'⟩ := hR.choice_nil (α := α) w
    rw [h'] at h
    cases h
  · obtain ⟨y, hy, s', h'⟩ := hR.choice_mem l w hl
    rw [h'] at h
    cases h
    exact hy

/-- all that the proofs need: `choice` returns nothing but elements of the list -/
def Rand.Sound (R : Rand S) : Prop := ∀ {α : Type} {l : List α} {w w' : S} {x : α}, R.choice l w = (.ok x, w') → x ∈ l

theorem Rand.Valid.sound {R : Rand S} (hR : R.Valid) : R.Sound := fun h => hR.choice_ok h

/-- The random walk: whatever nodes it visits, the pointers it leaves behind lead to the tree without cycles. -/
theorem wilsonWalk_spec {R : Rand S} (hR : R.Sound) {G : Graph V} {T : Finset V} :
    ∀ (fuel : ℕ) (next : Dict V (Option V)) (u : V) (w w' : S) (next' : Dict V (Option V)), next.WF → u ∈ G.nodes →
      wilsonWalk R G T fuel next u w = (.ok next', w') →
      next'.WF ∧ ∃ (W : Finset V) (r : V → ℕ), Disjoint W T ∧ W ⊆ G.nodes ∧ (u ∈ W ∨ u ∈ T) ∧ LeadsTo G next' T W r ∧
        ∀ x ∉ W, next'.get? x = next.get? x := by
  intro fuel
  induction fuel with
  | zero => intro next u w w' next' _ _ h; cases h
  | succ n ih =>
    intro next u w w' next' hwf hu h
    rw [wilsonWalk] at h
    by_cases hT : u ∈ T
    · rw [if_pos hT] at h
      cases h
      exact ⟨hwf, ∅, fun _ => 0, by simp, by simp, Or.inr hT, fun x hx => absurd hx (by simp), fun _ _ => rfl⟩
    · rw [if_neg hT] at h
      obtain ⟨v, w1, g1, g2⟩ := M.bind_eq_ok h
      have hv : v ∈ G.neighbors u := mem_iter.1 (hR g1)
      simp only [Graph.neighbors, Finset.mem_filter] at hv
      obtain ⟨k0, W, r, k1, k2, k3, k4, k5⟩ := ih _ _ _ _ _ (hwf.set u (some v)) hv.1 g2
      refine ⟨k0, ?_⟩
      by_cases huW : u ∈ W
      · refine ⟨W, r, k1, k2, Or.inl huW, k4, fun x hx => ?_⟩
        rw [k5 x hx, Dict.get?_set_ne]
        exact fun h => hx (h ▸ huW)
      · refine ⟨insert u W, fun x => if x = u then r v + 1 else r x, ?_, ?_, Or.inl (Finset.mem_insert_self _ _), ?_, ?_⟩
        · rw [Finset.disjoint_insert_left]; exact ⟨hT, k1⟩
        · exact Finset.insert_subset hu k2
        · intro x hx
          rcases Finset.mem_insert.1 hx with rfl | hxW
          · refine ⟨v, ?_, hv.2, hv.1, ?_⟩
            · rw [k5 x huW, Dict.get?_set_self]
            · rcases k3 with h3 | h3
              · right
                have : v ≠ x := fun h => huW (h ▸ h3)
                exact ⟨Finset.mem_insert_of_mem h3, by simp [this]⟩
              · exact Or.inl h3
          · obtain ⟨y, j1, j2, j3, j4⟩ := k4 x hxW
            refine ⟨y, j1, j2, j3, ?_⟩
            rcases j4 with j4 | ⟨j4, j5⟩
            · exact Or.inl j4
            · right
              have h1 : x ≠ u := fun h => huW (h ▸ hxW)
              have h2 : y ≠ u := fun h => huW (h ▸ j4)
              exact ⟨Finset.mem_insert_of_mem j4, by simpa [h1, h2] using j5⟩
        · intro x hx
          rw [Finset.mem_insert, not_or] at hx
          rw [k5 x hx.2, Dict.get?_set_ne]
          exact fun h => hx.1 h

/-- The loop-erased walk: exactly nodes of the walk are added, and the pointers of the added nodes stay inside the new tree;
it neither runs out of rounds nor fails. -/
theorem wilsonAttach_spec {G : Graph V} {next : Dict V (Option V)} {T W : Finset V} {r : V → ℕ} (hWG : W ⊆ G.nodes)
    (hl : LeadsTo G next T W r) :
    ∀ (fuel : ℕ) (A : Finset V) (u : V), (u ∈ W ∨ u ∈ T) → A ⊆ W →
      (∀ x ∈ A, ∀ y, next.get? x = some (some y) → y ∈ T ∪ A ∨ y = u) → G.nodes.card + 1 ≤ fuel + A.card →
      ∃ A', wilsonAttach next fuel (T ∪ A) u = .ok (T ∪ A') ∧ A ⊆ A' ∧ A' ⊆ W ∧ u ∈ T ∪ A' ∧
        ∀ x ∈ A', ∀ y, next.get? x = some (some y) → y ∈ T ∪ A' := by
  intro fuel
  induction fuel with
  | zero =>
    intro A u _ hA _ hc
    have := Finset.card_le_card (hA.trans hWG)
    omega
  | succ n ih =>
    intro A u hu hA hcl hc
    rw [wilsonAttach]
    by_cases hmem : u ∈ T ∪ A
    · rw [if_pos hmem]
      refine ⟨A, rfl, le_refl _, hA, hmem, fun x hx y hy => ?_⟩
      rcases hcl x hx y hy with h | rfl
      · exact h
      · exact hmem
    · rw [if_neg hmem]
      have hnot : u ∉ T ∧ u ∉ A := by simpa [not_or] using hmem
      have huW : u ∈ W := hu.resolve_right hnot.1
      obtain ⟨y, j1, j2, j3, j4⟩ := hl u huW
      rw [(Dict.get_eq_ok_iff (d := next) (k := u) (v := some y)).2 j1]
      simp only
      have hcard : (insert u A).card = A.card + 1 := Finset.card_insert_of_notMem hnot.2
      obtain ⟨A', k1, k2, k3, k4, k5⟩ := ih (insert u A) y (by tauto) (Finset.insert_subset huW hA) (by
        intro x hx z hz
        rcases Finset.mem_insert.1 hx with rfl | hx
        · rw [j1] at hz
          cases hz
          exact Or.inr rfl
        · left
          rcases hcl x hx z hz with h | rfl
          · rcases Finset.mem_union.1 h with h | h
            · exact Finset.mem_union_left _ h
            · exact Finset.mem_union_right _ (Finset.mem_insert_of_mem h)
          · exact Finset.mem_union_right _ (Finset.mem_insert_self _ _)) (by omega)
      have hins : insert u (T ∪ A) = T ∪ insert u A := by
        ext x; simp only [Finset.mem_insert, Finset.mem_union]; tauto
      rw [hins]
      exact ⟨A', k1, (Finset.subset_insert _ _).trans k2, k3, Finset.mem_union_right _ (k2 (Finset.mem_insert_self _ _)), k5⟩

/-- the invariant of the loop over the nodes: the pointers of the nodes of the tree form a tree with the given root -/
structure WilsonInv (G : Graph V) (root : V) (T : Finset V) (next : Dict V (Option V)) (rank : V → ℕ) : Prop where
  wf : next.WF
  root_mem : root ∈ T
  sub : T ⊆ G.nodes
  root_next : next.get? root = some none
  ptr : ∀ x ∈ T, x ≠ root → ∃ y ∈ T, next.get? x = some (some y) ∧ G.Adj x y ∧ rank y < rank x

/-- one round of the loop over the nodes keeps the invariant and does not fail in its second half -/
theorem wilson_round {R : Rand S} (hR : R.Sound) {G : Graph V} {fuel : ℕ} {root node : V} {T : Finset V} {next next1 : Dict V (Option V)} {rank : V → ℕ}
    {w w1 : S} (hnode : node ∈ G.nodes) (hinv : WilsonInv G root T next rank) (g1 : wilsonWalk R G T fuel next node w = (.ok next1, w1)) :
    ∃ T1 rank1, wilsonAttach next1 (G.nodes.card + 1) T node = .ok T1 ∧ WilsonInv G root T1 next1 rank1 ∧ T ⊆ T1 ∧ node ∈ T1 := by
  obtain ⟨k0, W, r, k1, k2, k3, k4, k5⟩ := wilsonWalk_spec hR _ _ _ _ _ _ hinv.wf hnode g1
  obtain ⟨A, a1, a2, a3, a4, a5⟩ := wilsonAttach_spec k2 k4 (G.nodes.card + 1) ∅ node k3 (by simp) (by simp) (by simp)
  rw [Finset.union_empty] at a1
  have hdis : ∀ x ∈ T, x ∉ W := fun x hx hW => (Finset.disjoint_left.1 k1 hW) hx
  refine ⟨T ∪ A, fun x => if x ∈ T then rank x else r x + 1 + T.sup rank, a1, ?_, Finset.subset_union_left, a4⟩
  refine ⟨k0, Finset.mem_union_left _ hinv.root_mem, Finset.union_subset hinv.sub (a3.trans k2), ?_, ?_⟩
  · rw [k5 root (hdis _ hinv.root_mem)]; exact hinv.root_next
  · intro x hx hne
    by_cases hxT : x ∈ T
    · obtain ⟨y, hy, j1, j2, j3⟩ := hinv.ptr x hxT hne
      exact ⟨y, Finset.mem_union_left _ hy, by rw [k5 x (hdis _ hxT)]; exact j1, j2, by simpa [hxT, hy] using j3⟩
    · have hxA : x ∈ A := (Finset.mem_union.1 hx).resolve_left hxT
      obtain ⟨y, j1, j2, j3, j4⟩ := k4 x (a3 hxA)
      refine ⟨y, a5 x hxA y j1, j1, j2, ?_⟩
      by_cases hyT : y ∈ T
      · have : rank y ≤ T.sup rank := Finset.le_sup hyT
        simp only [hyT, hxT, if_true, if_false]
        omega
      · obtain ⟨j5, j6⟩ := j4.resolve_left hyT
        simp only [hyT, hxT, if_false]
        omega

theorem wilsonLoop_spec {R : Rand S} (hR : R.Sound) {G : Graph V} {fuel : ℕ} {root : V} :
    ∀ (l : List V) (T : Finset V) (next : Dict V (Option V)) (rank : V → ℕ) (w w' : S) (T' : Finset V)
      (next' : Dict V (Option V)), (∀ v ∈ l, v ∈ G.nodes) → WilsonInv G root T next rank →
      wilsonLoop R G fuel l T next w = (.ok (T', next'), w') →
      ∃ rank', WilsonInv G root T' next' rank' ∧ T ⊆ T' ∧ ∀ v ∈ l, v ∈ T' := by
  intro l
  induction l with
  | nil =>
    intro T next rank w w' T' next' _ hinv h
    cases h
    exact ⟨rank, hinv, le_refl _, fun v hv => absurd hv (by simp)⟩
  | cons node rest ih =>
    intro T next rank w w' T' next' hl hinv h
    rw [wilsonLoop] at h
    obtain ⟨next1, w1, g1, g2⟩ := M.bind_eq_ok h
    obtain ⟨T1, w2, g3, g4⟩ := M.bind_eq_ok g2
    obtain ⟨T1', rank1, a1, hinv1, hsub, hnode⟩ := wilson_round hR (hl node (by simp)) hinv g1
    rw [a1] at g3
    have g3 : (Except.ok T1', w1) = (Except.ok T1, w2) := g3
    cases g3
    obtain ⟨rank', b1, b2, b3⟩ := ih _ _ _ _ _ _ _ (fun v hv => hl v (List.mem_cons_of_mem _ hv)) hinv1 g4
    refine ⟨rank', b1, hsub.trans b2, fun v hv => ?_⟩
    rcases List.mem_cons.1 hv with rfl | hv
    · exact b2 hnode
    · exact b3 v hv

theorem wilsonGraph_spec {next : Dict V (Option V)} {root : V} {par : V → V} {rank : V → ℕ} {N : Finset V}
    (hroot : next.get? root = some none)
    (hptr : ∀ x ∈ N, x ≠ root → next.get? x = some (some (par x)) ∧ rank (par x) < rank x) :
    ∀ (l : List V) (D : Finset V) (T : Graph V), l.Nodup → (∀ x ∈ l, x ∈ N) → D ⊆ N → (∀ x ∈ l, x ∉ D) →
      T.nodes = (D.erase root) ∪ (D.erase root).image par → T.edges = (D.erase root).image (fun v => (v, par v)) →
      ∃ T', wilsonGraph next l T = .ok T' ∧ T'.nodes = ((D ∪ l.toFinset).erase root) ∪ ((D ∪ l.toFinset).erase root).image par ∧
        T'.edges = ((D ∪ l.toFinset).erase root).image (fun v => (v, par v)) := by
  intro l
  induction l with
  | nil => intro D T _ _ _ _ h1 h2; exact ⟨T, rfl, by simpa using h1, by simpa using h2⟩
  | cons x l ih =>
    intro D T hnd hl hD hlD h1 h2
    rw [List.nodup_cons] at hnd
    have hins : D ∪ (x :: l).toFinset = insert x D ∪ l.toFinset := by
      ext y; simp only [Finset.mem_union, List.mem_toFinset, List.mem_cons, Finset.mem_insert]; tauto
    have hlD' : ∀ y ∈ l, y ∉ insert x D := by
      intro y hy h
      rcases Finset.mem_insert.1 h with rfl | h
      · exact hnd.1 hy
      · exact hlD y (List.mem_cons_of_mem _ hy) h
    rw [hins, wilsonGraph]
    by_cases hx : x = root
    · subst hx
      rw [(Dict.get_eq_ok_iff (d := next) (k := x) (v := none)).2 hroot]
      have he : (insert x D).erase x = D.erase x := by
        ext y; simp only [Finset.mem_erase, Finset.mem_insert]; tauto
      exact ih _ _ hnd.2 (fun y hy => hl y (List.mem_cons_of_mem _ hy)) (Finset.insert_subset (hl x (by simp)) hD) hlD'
        (by rw [he]; exact h1) (by rw [he]; exact h2)
    · obtain ⟨p1, p2⟩ := hptr x (hl x (by simp)) hx
      rw [(Dict.get_eq_ok_iff (d := next) (k := x) (v := some (par x))).2 p1]
      have he : (insert x D).erase root = insert x (D.erase root) := by
        ext y; simp only [Finset.mem_erase, Finset.mem_insert]
        constructor
        · tauto
        · rintro (rfl | h)
          · exact ⟨hx, Or.inl rfl⟩
          · tauto
      have hnadj : ¬ T.Adj x (par x) := by
        unfold Graph.Adj
        rw [h2]
        simp only [Finset.mem_image, Finset.mem_erase, Prod.mk.injEq]
        rintro (⟨y, ⟨_, hy⟩, rfl, _⟩ | ⟨y, ⟨hyr, hy⟩, rfl, hpy⟩)
        · exact hlD y (by simp) hy
        · have := (hptr _ (hD hy) hyr).2
          rw [hpy] at this
          omega
      refine ih _ _ hnd.2 (fun y hy => hl y (List.mem_cons_of_mem _ hy)) (Finset.insert_subset (hl x (by simp)) hD) hlD' ?_ ?_
      · rw [he]
        simp only [Graph.addEdge, h1, Finset.image_insert]
        ext y; simp only [Finset.mem_insert, Finset.mem_union]; tauto
      · rw [he]
        simp only [Graph.addEdge, if_neg hnadj, h2, Finset.image_insert]

/-- **C41** `uniform_spanning_tree`: whenever it returns, for whatever random choices, the graph has a root and the result is a
spanning tree of the graph; for a single node the result has no edges (and no nodes). -/
theorem C41_uniform_spanning_tree {R : Rand S} (hR : R.Sound) (fuel : ℕ) (G : Graph V) (w w' : S) (t : WTree V)
    (hret : uniformSpanningTree R fuel G w = (.ok t, w')) :
    (2 ≤ G.nodes.card → IsSpanningTree t.graph G) ∧ (G.nodes.card ≤ 1 → t.graph = ⟨∅, ∅⟩) ∧ G.nodes.Nonempty := by
  unfold uniformSpanningTree at hret
  obtain ⟨root, w1, g1, g2⟩ := M.bind_eq_ok hret
  obtain ⟨⟨N, next⟩, w2, g3, g4⟩ := M.bind_eq_ok g2
  obtain ⟨T, w3, g5, g6⟩ := M.bind_eq_ok g4
  cases g6
  have hroot : root ∈ G.nodes := mem_iter.1 (hR g1)
  have hinv0 : WilsonInv G root {root} ((Dict.empty : Dict V (Option V)).set root none) (fun _ => 0) :=
    ⟨Dict.wf_empty.set _ _, by simp, by simpa using hroot, Dict.get?_set_self _ _ _, by
      intro x hx hne; exact absurd (by simpa using hx) hne⟩
  obtain ⟨rank, hinv, _, hall⟩ := wilsonLoop_spec hR _ _ _ _ _ _ _ _ (fun v hv => mem_iter.1 hv) hinv0 g3
  have hN : N = G.nodes := Finset.Subset.antisymm hinv.sub (fun v hv => hall v (mem_iter.2 hv))
  subst hN
  have hne : Nonempty V := ⟨root⟩
  choose! par hpar using hinv.ptr
  obtain ⟨T', t1, t2, t3⟩ := wilsonGraph_spec (N := G.nodes) (rank := rank) (par := par) hinv.root_next
    (fun x hx h => ⟨(hpar x hx h).2.1, (hpar x hx h).2.2.2⟩) (iter G.nodes) ∅ ⟨∅, ∅⟩ (nodup_iter _) (fun x hx => mem_iter.1 hx)
    (by simp) (by simp) (by simp) (by simp)
  have g5 : ((wilsonGraph next (iter G.nodes) ⟨∅, ∅⟩), w2) = (Except.ok T, w') := g5
  rw [t1] at g5
  cases g5
  simp only [Finset.empty_union, toFinset_iter] at t2 t3
  refine ⟨fun hcard => ?_, fun hcard => ?_, ⟨root, hroot⟩⟩
  · -- the root is the end of some pointer
    have hnodes : T.nodes = G.nodes := by
      rw [t2]
      apply Finset.Subset.antisymm
      · refine Finset.union_subset (Finset.erase_subset _ _) ?_
        intro y hy
        obtain ⟨x, hx, rfl⟩ := Finset.mem_image.1 hy
        exact (hpar x (Finset.mem_of_mem_erase hx) (Finset.ne_of_mem_erase hx)).1
      · intro y hy
        by_cases hyr : y = root
        · subst hyr
          refine Finset.mem_union_right _ (Finset.mem_image.2 ?_)
          obtain ⟨x0, hx0, hx0r⟩ := Finset.exists_mem_ne (by omega : 1 < G.nodes.card) y
          have key : ∀ n x, x ∈ G.nodes → x ≠ y → rank x = n → ∃ a ∈ G.nodes.erase y, par a = y := by
            intro n
            induction n using Nat.strong_induction_on with
            | _ n ih =>
              intro x hx hxr hn
              obtain ⟨q1, q2, q3, q4⟩ := hpar x hx hxr
              by_cases hq : par x = y
              · exact ⟨x, Finset.mem_erase.2 ⟨hxr, hx⟩, hq⟩
              · exact ih (rank (par x)) (by omega) (par x) q1 hq rfl
          exact key _ x0 hx0 hx0r rfl
        · exact Finset.mem_union_left _ (Finset.mem_erase.2 ⟨hyr, hy⟩)
    refine ⟨isTree_of_parents (root := root) (par := par) (rank := rank) (by rw [hnodes]; exact hroot) ?_ (by rw [hnodes]; exact t3),
      hnodes, ?_⟩
    · intro v hv hvr
      rw [hnodes] at hv ⊢
      exact ⟨(hpar v hv hvr).1, (hpar v hv hvr).2.2.2⟩
    · intro u v huv
      unfold Graph.Adj at huv
      simp only [t3, Finset.mem_image, Finset.mem_erase, Prod.mk.injEq] at huv
      rcases huv with ⟨x, ⟨h1, h2⟩, rfl, rfl⟩ | ⟨x, ⟨h1, h2⟩, rfl, rfl⟩
      · exact (hpar _ h2 h1).2.2.1
      · exact (hpar _ h2 h1).2.2.1.symm
  · have : G.nodes.erase root = ∅ := by
      rw [← Finset.card_eq_zero, Finset.card_erase_of_mem hroot]; omega
    rw [this] at t2 t3
    obtain ⟨n, e⟩ := T
    simp only [Finset.image_empty, Finset.union_empty] at t2 t3
    rw [t2, t3]

theorem spanOk_uniform {R : Rand S} (hR : R.Valid) (fuel : ℕ) : SpanOk (V := V) (uniformSpanningTree R fuel) := by
  intro G w t w' _ _ h
  obtain ⟨h1, h2, _⟩ := C41_uniform_spanning_tree hR.sound fuel G w w' t h
  by_cases hc : 2 ≤ G.nodes.card
  · exact Or.inl (h1 hc)
  · exact Or.inr ⟨by omega, by rw [h2 (by omega)]⟩

/-- a nonempty proper part of a connected graph has a neighbour outside -/
theorem neighbors_ne_nil {G : Graph V} (hconn : ConnectedOn G G.nodes) {u r : V} (hu : u ∈ G.nodes) (hr : r ∈ G.nodes)
    (hne : u ≠ r) : iter (G.neighbors u) ≠ [] := by
  intro h
  rcases Relation.ReflTransGen.cases_head (hconn.2 u hu r hr) with h' | ⟨c, hc, _⟩
  · exact hne h'
  · have : c ∈ iter (G.neighbors u) := mem_iter.2 (Finset.mem_filter.2 ⟨hc.2.2, hc.1⟩)
    rw [h] at this
    cases this

theorem wilsonWalk_outcomes {R : Rand S} (hR : R.Valid) {G : Graph V} {T : Finset V} (hconn : ConnectedOn G G.nodes) {r : V}
    (hr : r ∈ G.nodes) (hrT : r ∈ T) : ∀ (fuel : ℕ) (next : Dict V (Option V)) (u : V) (w : S), u ∈ G.nodes →
      (∃ next' w', wilsonWalk R G T fuel next u w = (.ok next', w')) ∨
      (∃ w', wilsonWalk R G T fuel next u w = (.error .outOfFuel, w')) := by
  intro fuel
  induction fuel with
  | zero => intro next u w _; exact Or.inr ⟨w, rfl⟩
  | succ n ih =>
    intro next u w hu
    rw [wilsonWalk]
    by_cases hT : u ∈ T
    · rw [if_pos hT]; exact Or.inl ⟨next, w, rfl⟩
    · rw [if_neg hT]
      obtain ⟨v, hv, w1, g1⟩ := hR.choice_mem _ w (neighbors_ne_nil hconn hu hr (fun h => hT (h ▸ hrT)))
      have hvG : v ∈ G.nodes := (Finset.mem_filter.1 (mem_iter.1 hv)).1
      rw [M.bind_ok g1]
      exact ih _ v w1 hvG

theorem wilsonLoop_outcomes {R : Rand S} (hR : R.Valid) {G : Graph V} (hconn : ConnectedOn G G.nodes) {fuel : ℕ} {root : V} :
    ∀ (l : List V) (T : Finset V) (next : Dict V (Option V)) (rank : V → ℕ) (w : S), (∀ v ∈ l, v ∈ G.nodes) →
      WilsonInv G root T next rank →
      (∃ r w', wilsonLoop R G fuel l T next w = (.ok r, w')) ∨
      (∃ w', wilsonLoop R G fuel l T next w = (.error .outOfFuel, w')) := by
  intro l
  induction l with
  | nil => intro T next rank w _ _; exact Or.inl ⟨(T, next), w, rfl⟩
  | cons node rest ih =>
    intro T next rank w hl hinv
    have hcons : wilsonLoop R G fuel (node :: rest) T next =
        (wilsonWalk R G T fuel next node >>= fun next' =>
          M.lift (wilsonAttach next' (G.nodes.card + 1) T node) >>= fun tree' => wilsonLoop R G fuel rest tree' next') := rfl
    rcases wilsonWalk_outcomes hR hconn (hinv.sub hinv.root_mem) hinv.root_mem fuel next node w (hl node (by simp)) with
      ⟨next1, w1, g1⟩ | ⟨w1, g1⟩
    · obtain ⟨k0, W, r, k1, k2, k3, k4, k5⟩ := wilsonWalk_spec hR.sound _ _ _ _ _ _ hinv.wf (hl node (by simp)) g1
      obtain ⟨A, a1, _⟩ := wilsonAttach_spec k2 k4 (G.nodes.card + 1) ∅ node k3 (by simp) (by simp) (by simp)
      rw [Finset.union_empty] at a1
      have g2 : M.lift (wilsonAttach next1 (G.nodes.card + 1) T node) w1 = (.ok (T ∪ A), w1) := by
        rw [a1]; rfl
      have hone : wilsonLoop R G fuel [node] T next w = (.ok (T ∪ A, next1), w1) := by
        show (wilsonWalk R G T fuel next node >>= fun next' =>
          M.lift (wilsonAttach next' (G.nodes.card + 1) T node) >>= fun tree' => wilsonLoop R G fuel [] tree' next') w = _
        rw [M.bind_ok g1, M.bind_ok g2]
        rfl
      obtain ⟨rank1, hinv1, _⟩ := wilsonLoop_spec hR.sound [node] _ _ _ _ _ _ _ (fun v hv => hl v (by simp_all)) hinv hone
      rw [hcons, M.bind_ok g1, M.bind_ok g2]
      exact ih _ _ rank1 w1 (fun v hv => hl v (List.mem_cons_of_mem _ hv)) hinv1
    · rw [hcons, M.bind_error g1]
      exact Or.inr ⟨w1, rfl⟩

/-- **C41** On a connected graph `uniform_spanning_tree` raises no exception: it returns, or a random walk goes on for more
than `fuel` steps. -/
theorem C41_outcomes {R : Rand S} (hR : R.Valid) (fuel : ℕ) (G : Graph V) (hconn : ConnectedOn G G.nodes) (w : S) :
    (∃ t w', uniformSpanningTree R fuel G w = (.ok t, w')) ∨
    (∃ w', uniformSpanningTree R fuel G w = (.error .outOfFuel, w')) := by
  unfold uniformSpanningTree
  obtain ⟨root, hr, w1, g1⟩ := hR.choice_mem (iter G.nodes) w (by
    obtain ⟨x, hx⟩ := hconn.1
    intro h
    have := mem_iter.2 hx
    rw [h] at this
    cases this)
  have hroot : root ∈ G.nodes := mem_iter.1 hr
  have hinv0 : WilsonInv G root {root} ((Dict.empty : Dict V (Option V)).set root none) (fun _ => 0) :=
    ⟨Dict.wf_empty.set _ _, by simp, by simpa using hroot, Dict.get?_set_self _ _ _, by
      intro x hx hne; exact absurd (by simpa using hx) hne⟩
  rw [M.bind_ok g1]
  rcases wilsonLoop_outcomes hR hconn (fuel := fuel) (iter G.nodes) _ _ _ w1 (fun v hv => mem_iter.1 hv) hinv0 with
    ⟨⟨N, next⟩, w2, g2⟩ | ⟨w2, g2⟩
  · rw [M.bind_ok g2]
    obtain ⟨rank, hinv, _, _⟩ := wilsonLoop_spec hR.sound _ _ _ _ _ _ _ _ (fun v hv => mem_iter.1 hv) hinv0 g2
    have hne : Nonempty V := ⟨root⟩
    choose! par hpar using hinv.ptr
    obtain ⟨T', t1, _⟩ := wilsonGraph_spec (N := N) (rank := rank) (par := par) hinv.root_next
      (fun x hx h => ⟨(hpar x hx h).2.1, (hpar x hx h).2.2.2⟩) (iter N) ∅ ⟨∅, ∅⟩ (nodup_iter _) (fun x hx => mem_iter.1 hx)
      (by simp) (by simp) (by simp) (by simp)
    have g3 : M.lift (wilsonGraph next (iter N) ⟨∅, ∅⟩) w2 = (.ok T', w2) := by rw [t1]; rfl
    rw [M.bind_ok g3]
    exact Or.inl ⟨_, _, rfl⟩
  · rw [M.bind_error g2]
    exact Or.inr ⟨w2, rfl⟩

/-! ## Kruskal's algorithm -/

/-- The invariant of Kruskal's algorithm after the edges `E`: the chosen edges `F` connect nodes with equal representatives,
and every chosen edge has reduced the number of sets by one. -/
structure KruskalInv {V : Type} [DecidableEq V] (N : Finset V) (E : List (V × V)) (st : (V → V) × Finset (V × V)) : Prop where
  sub : ∀ e ∈ st.2, e ∈ E
  same : ∀ e ∈ E, st.1 e.1 = st.1 e.2
  reach : ∀ u ∈ N, ∀ v ∈ N, st.1 u = st.1 v → ReachIn ⟨N, st.2⟩ N u v
  card : st.2.card + (N.image st.1).card = N.card

theorem ReachIn.mono_edges {V : Type} [DecidableEq V] {N : Finset V} {F F' : Finset (V × V)} (h : F ⊆ F') {s : Finset V} {u v : V}
    (hr : ReachIn ⟨N, F⟩ s u v) : ReachIn ⟨N, F'⟩ s u v :=
  Relation.ReflTransGen.mono (fun _ _ hab => ⟨hab.1.imp (fun x => h x) (fun x => h x), hab.2⟩) _ _ hr

theorem kruskalStep_inv {V : Type} [DecidableEq V] {N : Finset V} {E : List (V × V)} {st : (V → V) × Finset (V × V)}
    (h : KruskalInv N E st) {e : V × V} (h1 : e.1 ∈ N) (h2 : e.2 ∈ N) : KruskalInv N (E ++ [e]) (kruskalStep st e) := by
  unfold kruskalStep
  by_cases heq : st.1 e.1 = st.1 e.2
  · rw [if_pos heq]
    refine ⟨fun x hx => List.mem_append_left _ (h.sub x hx), fun x hx => ?_, h.reach, h.card⟩
    rcases List.mem_append.1 hx with hx | hx
    · exact h.same x hx
    · rw [List.mem_singleton] at hx; subst hx; exact heq
  · rw [if_neg heq]
    have hsub : st.2 ⊆ insert e st.2 := Finset.subset_insert _ _
    have hedge : ReachIn ⟨N, insert e st.2⟩ N e.1 e.2 :=
      Relation.ReflTransGen.single ⟨Or.inl (Finset.mem_insert_self _ _), h1, h2⟩
    have hto : ∀ u ∈ N, ReachIn ⟨N, insert e st.2⟩ N u (if st.1 u = st.1 e.2 then e.1 else u) := by
      intro u hu
      by_cases hu2 : st.1 u = st.1 e.2
      · rw [if_pos hu2]
        exact ((h.reach u hu e.2 h2 hu2).mono_edges hsub).trans hedge.symm
      · rw [if_neg hu2]; exact Relation.ReflTransGen.refl
    refine ⟨?_, ?_, ?_, ?_⟩
    · intro x hx
      rcases Finset.mem_insert.1 hx with rfl | hx
      · simp
      · exact List.mem_append_left _ (h.sub x hx)
    · intro x hx
      rcases List.mem_append.1 hx with hx | hx
      · simp only [h.same x hx]
      · rw [List.mem_singleton] at hx
        subst hx
        simp only [if_true, if_neg heq]
    · intro u hu v hv huv
      refine (hto u hu).trans (ReachIn.trans ?_ (hto v hv).symm)
      have hm : ∀ x ∈ N, (if st.1 x = st.1 e.2 then e.1 else x) ∈ N := by
        intro x hx
        split_ifs
        · exact h1
        · exact hx
      refine (h.reach _ (hm u hu) _ (hm v hv) ?_).mono_edges hsub
      simp only at huv
      split_ifs at huv ⊢ <;> simp_all
    · have himg : N.image (fun x => if st.1 x = st.1 e.2 then st.1 e.1 else st.1 x) = (N.image st.1).erase (st.1 e.2) := by
        ext y
        simp only [Finset.mem_image, Finset.mem_erase]
        constructor
        · rintro ⟨x, hx, rfl⟩
          split_ifs with hx2
          · exact ⟨heq, e.1, h1, rfl⟩
          · exact ⟨hx2, x, hx, rfl⟩
        · rintro ⟨hne, x, hx, rfl⟩
          exact ⟨x, hx, by rw [if_neg hne]⟩
      have hnot : e ∉ st.2 := fun he => heq (h.same e (h.sub e he))
      have hmem : st.1 e.2 ∈ N.image st.1 := Finset.mem_image_of_mem _ h2
      have hpos : 0 < (N.image st.1).card := Finset.card_pos.2 ⟨_, hmem⟩
      have hc := h.card
      simp only [himg, Finset.card_insert_of_notMem hnot, Finset.card_erase_of_mem hmem]
      omega

theorem kruskalFold_inv {V : Type} [DecidableEq V] {N : Finset V} : ∀ (E E0 : List (V × V)) (st : (V → V) × Finset (V × V)),
    (∀ e ∈ E, e.1 ∈ N ∧ e.2 ∈ N) → KruskalInv N E0 st →
      KruskalInv N (E0 ++ E) (E.foldl kruskalStep st) ∧ st.2 ⊆ (E.foldl kruskalStep st).2 := by
  intro E
  induction E with
  | nil => intro E0 st _ h; simpa using h
  | cons e E ih =>
    intro E0 st hE h
    obtain ⟨g1, g2⟩ := hE e (by simp)
    obtain ⟨k1, k2⟩ := ih (E0 ++ [e]) (kruskalStep st e) (fun x hx => hE x (List.mem_cons_of_mem _ hx)) (kruskalStep_inv h g1 g2)
    refine ⟨by simpa using k1, Finset.Subset.trans ?_ k2⟩
    unfold kruskalStep
    split_ifs
    · exact le_refl _
    · exact Finset.subset_insert _ _

theorem kruskal_init_inv {V : Type} [DecidableEq V] (N : Finset V) : KruskalInv N [] ((id : V → V), (∅ : Finset (V × V))) :=
  ⟨by simp, by simp, fun u _ v _ (h : u = v) => h ▸ Relation.ReflTransGen.refl, by simp⟩

/-- if the edges connect the nodes, all nodes end up in one set -/
theorem kruskal_one_set {V : Type} [DecidableEq V] {N : Finset V} {E : List (V × V)} {st : (V → V) × Finset (V × V)}
    (h : KruskalInv N E st) {s : Finset V} {G : Graph V} (hE : ∀ e ∈ G.edges, e.1 ∈ s → e.2 ∈ s → e ∈ E) {u v : V}
    (hr : ReachIn G s u v) : st.1 u = st.1 v := by
  induction hr with
  | refl => rfl
  | tail _ hab ih =>
    rw [ih]
    rcases hab.1 with he | he
    · exact h.same _ (hE _ he hab.2.1 hab.2.2)
    · exact (h.same _ (hE _ he hab.2.2 hab.2.1)).symm

/-- a connected graph with `n` nodes has at least `n - 1` edges -/
theorem card_le_of_connected {V : Type} [DecidableEq V] {G : Graph V} {s : Finset V} (h : ConnectedOn G s) :
    s.card ≤ (G.edges.filter (fun e => e.1 ∈ s ∧ e.2 ∈ s)).card + 1 := by
  obtain ⟨x, hx⟩ := h.1
  set E := (G.edges.filter (fun e => e.1 ∈ s ∧ e.2 ∈ s)) with hE
  obtain ⟨hinv, _⟩ := kruskalFold_inv (N := s) E.toList [] (id, ∅)
    (fun e he => by rw [Finset.mem_toList, hE, Finset.mem_filter] at he; exact he.2) (kruskal_init_inv s)
  rw [List.nil_append] at hinv
  have himg : s.image (E.toList.foldl kruskalStep (id, ∅)).1 = {(E.toList.foldl kruskalStep (id, ∅)).1 x} := by
    ext y
    rw [Finset.mem_image, Finset.mem_singleton]
    constructor
    · rintro ⟨v, hv, rfl⟩
      refine kruskal_one_set hinv (G := G) (s := s) (fun e he h1 h2 => ?_) (h.2 v hv x hx)
      rw [Finset.mem_toList, hE, Finset.mem_filter]
      exact ⟨he, h1, h2⟩
    · rintro rfl
      exact ⟨x, hx, rfl⟩
  have hc := hinv.card
  rw [himg, Finset.card_singleton] at hc
  have hsub : (E.toList.foldl kruskalStep ((id : V → V), (∅ : Finset (V × V)))).2 ⊆ E := fun e he => Finset.mem_toList.1 (hinv.sub e he)
  have := Finset.card_le_card hsub
  omega

theorem drawWeights_ok {A : Type} [DecidableEq A] {R : Rand S} (hR : R.Valid) (attr : String → V → Option A)
    (d : Dict String ℚ) : ∀ (es : List (V × V)) (w : S), ∃ l w', drawWeights R attr d es w = (.ok l, w') ∧ l.map Prod.snd = es ∧
      ∀ p ∈ l, ∃ x, 0 ≤ x ∧ x < 1 ∧ p.1 = surcharged attr d x p.2 := by
  intro es
  induction es with
  | nil => intro w; exact ⟨[], w, rfl, rfl, by simp⟩
  | cons e es ih =>
    intro w
    obtain ⟨x, w1, g1, g2, g3⟩ := hR.random_ok w
    obtain ⟨l, w2, k1, k2, k3⟩ := ih w1
    refine ⟨(surcharged attr d x e, e) :: l, w2, ?_, by simp [k2], ?_⟩
    · show (R.random >>= fun x => drawWeights R attr d es >>= fun rest => pure ((surcharged attr d x e, e) :: rest)) w = _
      rw [M.bind_ok g1, M.bind_ok k1]
      rfl
    · intro p hp
      rcases List.mem_cons.1 hp with rfl | hp
      · exact ⟨x, g2, g3, rfl⟩
      · exact k3 p hp

theorem surcharged_eq {A : Type} [DecidableEq A] (attr : String → V → Option A) (d : Dict String ℚ) (x : ℚ) (e : V × V) :
    surcharged attr d x e = x + ((d.entries.filter (fun kv => crosses attr kv.1 e)).map Prod.snd).sum := by
  unfold surcharged
  have key : ∀ (l : List (String × ℚ)) (x : ℚ), l.foldl (fun w kv => if crosses attr kv.1 e then w + kv.2 else w) x =
      x + ((l.filter (fun kv => crosses attr kv.1 e)).map Prod.snd).sum := by
    intro l
    induction l with
    | nil => intro x; simp
    | cons kv l ih =>
      intro x
      rw [List.foldl_cons, ih]
      by_cases h : crosses attr kv.1 e = true
      · simp [h, add_assoc]
      · simp [h]
  exact key _ _

/-- the total of the surcharges on the attributes other than `key` -/
def otherSurcharges (d : Dict String ℚ) (key : String) : ℚ :=
  ((d.entries.filter (fun kv => decide (kv.1 ≠ key))).map Prod.snd).sum

theorem sum_sublist_le {l l' : List ℚ} (h : l.Sublist l') (h0 : ∀ x ∈ l', 0 ≤ x) : l.sum ≤ l'.sum := by
  induction h with
  | slnil => exact le_refl _
  | cons a _ ih =>
    rw [List.sum_cons]
    have := h0 a (by simp)
    have := ih (fun x hx => h0 x (List.mem_cons_of_mem _ hx))
    linarith
  | cons_cons a _ ih =>
    rw [List.sum_cons, List.sum_cons]
    have := ih (fun x hx => h0 x (List.mem_cons_of_mem _ hx))
    linarith

/-- edges that cross the regions of `key` are heavier than those that do not -/
theorem surcharged_cross {A : Type} [DecidableEq A] {attr : String → V → Option A} {d : Dict String ℚ} {key : String} {c : ℚ}
    (hkey : (key, c) ∈ d.entries) (hpos : ∀ kv ∈ d.entries, 0 ≤ kv.2) {x : ℚ} (hx : 0 ≤ x) {e : V × V}
    (hc : crosses attr key e = true) : c ≤ surcharged attr d x e := by
  rw [surcharged_eq]
  have hmem : c ∈ (d.entries.filter (fun kv => crosses attr kv.1 e)).map Prod.snd :=
    List.mem_map.2 ⟨(key, c), List.mem_filter.2 ⟨hkey, hc⟩, rfl⟩
  have h0 : ∀ y ∈ (d.entries.filter (fun kv => crosses attr kv.1 e)).map Prod.snd, (0 : ℚ) ≤ y := by
    intro y hy
    obtain ⟨kv, hkv, rfl⟩ := List.mem_map.1 hy
    exact hpos kv (List.mem_filter.1 hkv).1
  have h1 := sum_sublist_le (List.singleton_sublist.2 hmem) h0
  simp only [List.sum_cons, List.sum_nil, add_zero] at h1
  linarith

theorem surcharged_inside {A : Type} [DecidableEq A] {attr : String → V → Option A} {d : Dict String ℚ} {key : String}
    (hpos : ∀ kv ∈ d.entries, 0 ≤ kv.2) {x : ℚ} (hx : x < 1) {e : V × V}
    (hc : ¬ crosses attr key e = true) : surcharged attr d x e < 1 + otherSurcharges d key := by
  rw [surcharged_eq]
  have hsub : (d.entries.filter (fun kv => crosses attr kv.1 e)).Sublist (d.entries.filter (fun kv => decide (kv.1 ≠ key))) := by
    refine List.monotone_filter_right _ ?_
    intro kv hkv
    simp only [ne_eq, decide_not, Bool.not_eq_eq_eq_not, Bool.not_true, decide_eq_false_iff_not]
    rintro rfl
    exact hc hkv
  have h1 := sum_sublist_le (hsub.map Prod.snd) (fun y hy => by
    obtain ⟨kv, hkv, rfl⟩ := List.mem_map.1 hy
    exact hpos kv (List.mem_filter.1 hkv).1)
  unfold otherSurcharges
  linarith

theorem dropWhile_ge {l : List (ℚ × (V × V))} (hl : l.Pairwise (fun a b => a.1 ≤ b.1)) (c : ℚ) :
    ∀ p ∈ l.dropWhile (fun p => decide (p.1 < c)), c ≤ p.1 := by
  induction l with
  | nil => simp
  | cons a l ih =>
    intro p hp
    rw [List.pairwise_cons] at hl
    by_cases ha : a.1 < c
    · rw [List.dropWhile_cons_of_pos (by simpa using ha)] at hp
      exact ih hl.2 p hp
    · rw [List.dropWhile_cons_of_neg (by simpa using ha)] at hp
      rcases List.mem_cons.1 hp with rfl | hp
      · exact not_lt.1 ha
      · exact (not_lt.1 ha).trans (hl.1 p hp)

theorem takeWhile_lt {l : List (ℚ × (V × V))} (c : ℚ) : ∀ p ∈ l.takeWhile (fun p => decide (p.1 < c)), p.1 < c := by
  induction l with
  | nil => simp
  | cons a l ih =>
    intro p hp
    by_cases ha : a.1 < c
    · rw [List.takeWhile_cons_of_pos (by simpa using ha)] at hp
      rcases List.mem_cons.1 hp with rfl | hp
      · exact ha
      · exact ih p hp
    · rw [List.takeWhile_cons_of_neg (by simpa using ha)] at hp
      cases hp

/-- the nodes of the region `a` of the attribute `key` -/
def region {A : Type} [DecidableEq A] (G : Graph V) (attr : String → V → Option A) (key : String) (a : A) : Finset V :=
  G.nodes.filter (fun v => attr key v = some a)

theorem region_subset {A : Type} [DecidableEq A] (G : Graph V) (attr : String → V → Option A) (key : String) (a : A) :
    region G attr key a ⊆ G.nodes := Finset.filter_subset _ _

/-- **C42** `random_spanning_tree`: for whatever random numbers it returns a spanning tree of a connected graph; and if the
surcharge of an attribute is at least 1 plus the other surcharges (so at least 1 when it is the only one), then every region of
the attribute that is connected in the graph is connected inside the tree. -/
theorem C42_random_spanning_tree {A : Type} [DecidableEq A] {R : Rand S} (hR : R.Valid) (attr : String → V → Option A)
    (surcharge : Option (Dict String ℚ)) (G : Graph V) (hG : G.WF) (hconn : ConnectedOn G G.nodes) (w : S) :
    ∃ t w', randomSpanningTree R attr surcharge G w = (.ok t, w') ∧ IsSpanningTree t.graph G ∧ t.graph.edges ⊆ G.edges ∧
      ∀ d key c, surcharge = some d → (key, c) ∈ d.entries → (∀ kv ∈ d.entries, 0 ≤ kv.2) → 1 + otherSurcharges d key ≤ c →
        ∀ a, ConnectedOn G (region G attr key a) → ConnectedOn t.graph (region G attr key a) := by
  obtain ⟨l, w', g1, g2, g3⟩ := drawWeights_ok hR attr (surcharge.getD Dict.empty) (iterE G.edges) w
  refine ⟨⟨⟨G.nodes, kruskal l⟩, weightOf l⟩, w', ?_, ?_⟩
  · unfold randomSpanningTree
    rw [M.bind_ok g1]
    rfl
  set L := l.insertionSort (fun a b => a.1 ≤ b.1) with hL
  have hsorted : L.Pairwise (fun a b => a.1 ≤ b.1) := by
    have tr : IsTrans (ℚ × (V × V)) (fun a b => a.1 ≤ b.1) := ⟨fun _ _ _ h h' => le_trans h h'⟩
    have tot : Std.Total (fun a b : ℚ × (V × V) => a.1 ≤ b.1) := ⟨fun a b => le_total a.1 b.1⟩
    exact List.pairwise_insertionSort _ l
  have hLmem : ∀ p, p ∈ L ↔ p ∈ l := fun p => (List.perm_insertionSort _ l).mem_iff
  have hEmem : ∀ e, e ∈ L.map Prod.snd ↔ e ∈ G.edges := by
    intro e
    rw [← mem_iterE, ← g2, List.mem_map, List.mem_map]
    simp only [hLmem]
  have hEnd : ∀ e ∈ G.edges, e.1 ∈ G.nodes ∧ e.2 ∈ G.nodes := fun e he => ⟨hG.fst_mem e he, hG.snd_mem e he⟩
  obtain ⟨hinv, _⟩ := kruskalFold_inv (N := G.nodes) (L.map Prod.snd) [] (id, ∅) (fun e he => hEnd e ((hEmem e).1 he))
    (kruskal_init_inv _)
  rw [List.nil_append] at hinv
  have hF : kruskal l = ((L.map Prod.snd).foldl kruskalStep (id, ∅)).2 := rfl
  have hsub : kruskal l ⊆ G.edges := fun e he => (hEmem e).1 (hinv.sub e (hF ▸ he))
  have hone : ∀ u ∈ G.nodes, ∀ v ∈ G.nodes, ((L.map Prod.snd).foldl kruskalStep (id, ∅)).1 u =
      ((L.map Prod.snd).foldl kruskalStep (id, ∅)).1 v := fun u hu v hv =>
    kruskal_one_set hinv (G := G) (fun e he _ _ => (hEmem e).2 he) (hconn.2 u hu v hv)
  refine ⟨⟨⟨⟨fun e he => (hEnd e (hsub he)).1, fun e he => (hEnd e (hsub he)).2, fun e he h1 h2 => hG.asymm e (hsub he) h1 (hsub h2)⟩,
    ⟨hconn.1, fun u hu v hv => hinv.reach u hu v hv (hone u hu v hv)⟩, ?_⟩, rfl,
    fun u v h => h.imp (fun x => hsub x) (fun x => hsub x)⟩, hsub, ?_⟩
  · obtain ⟨x, hx⟩ := hconn.1
    have himg : G.nodes.image ((L.map Prod.snd).foldl kruskalStep (id, ∅)).1 =
        {((L.map Prod.snd).foldl kruskalStep (id, ∅)).1 x} := by
      ext y
      rw [Finset.mem_image, Finset.mem_singleton]
      constructor
      · rintro ⟨v, hv, rfl⟩
        exact hone v hv x hx
      · rintro rfl
        exact ⟨x, hx, rfl⟩
    have hc := hinv.card
    rw [himg, Finset.card_singleton] at hc
    exact hc
  · rintro d key c rfl hkey hpos hbig a ha
    refine ⟨ha.1, fun u hu v hv => ?_⟩
    simp only [Option.getD_some] at g3
    have hsplit : L = L.takeWhile (fun p => decide (p.1 < c)) ++ L.dropWhile (fun p => decide (p.1 < c)) :=
      List.takeWhile_append_dropWhile.symm
    set L1 := L.takeWhile (fun p => decide (p.1 < c)) with hL1
    set L2 := L.dropWhile (fun p => decide (p.1 < c)) with hL2
    have hL1G : ∀ e ∈ L1.map Prod.snd, e ∈ G.edges := by
      intro e he
      refine (hEmem e).1 ?_
      rw [hsplit, List.map_append]
      exact List.mem_append_left _ he
    obtain ⟨hinv1, _⟩ := kruskalFold_inv (N := G.nodes) (L1.map Prod.snd) [] (id, ∅) (fun e he => hEnd e (hL1G e he))
      (kruskal_init_inv _)
    rw [List.nil_append] at hinv1
    obtain ⟨_, hmono⟩ := kruskalFold_inv (N := G.nodes) (L2.map Prod.snd) (L1.map Prod.snd) _ (fun e he => hEnd e (by
      refine (hEmem e).1 ?_
      rw [hsplit, List.map_append]
      exact List.mem_append_right _ he)) hinv1
    rw [← List.foldl_append, ← List.map_append, ← hsplit, ← hF] at hmono
    -- edges of the first part do not cross
    have hnc : ∀ e ∈ L1.map Prod.snd, ¬ crosses attr key e = true := by
      intro e he hcr
      obtain ⟨p, hp, rfl⟩ := List.mem_map.1 he
      have hlt : p.1 < c := takeWhile_lt c p hp
      have hpl : p ∈ l := (hLmem p).1 (by rw [hsplit]; exact List.mem_append_left _ hp)
      obtain ⟨x, hx0, hx1, hpx⟩ := g3 p hpl
      have := surcharged_cross hkey hpos hx0 hcr
      linarith
    -- edges inside the region belong to the first part
    have hin : ∀ e ∈ G.edges, e.1 ∈ region G attr key a → e.2 ∈ region G attr key a → e ∈ L1.map Prod.snd := by
      intro e he h1 h2
      obtain ⟨p, hp, rfl⟩ := List.mem_map.1 ((hEmem e).2 he)
      have hcr : ¬ crosses attr key p.2 = true := by
        simp only [region, Finset.mem_filter] at h1 h2
        simp [crosses, h1.2, h2.2]
      obtain ⟨x, hx0, hx1, hpx⟩ := g3 p ((hLmem p).1 hp)
      have hlt := surcharged_inside hpos hx1 hcr
      rw [hsplit] at hp
      rcases List.mem_append.1 hp with hp | hp
      · exact List.mem_map.2 ⟨p, hp, rfl⟩
      · have := dropWhile_ge hsorted c p hp
        linarith
    have hreg : ∀ x, x ∈ region G attr key a ↔ x ∈ G.nodes ∧ attr key x = some a := fun x => Finset.mem_filter
    have huv := hinv1.reach u ((hreg u).1 hu).1 v ((hreg v).1 hv).1 (kruskal_one_set hinv1 (G := G) hin (ha.2 u hu v hv))
    -- the path stays in the region
    have hstep : ∀ x y, x ∈ region G attr key a → Within ⟨G.nodes, ((L1.map Prod.snd).foldl kruskalStep (id, ∅)).2⟩ G.nodes x y →
        y ∈ region G attr key a := by
      intro x y hx hxy
      rw [hreg] at hx ⊢
      refine ⟨hxy.2.2, ?_⟩
      rcases hxy.1 with he | he
      · have := hnc _ (hinv1.sub _ he)
        simp only [crosses, decide_eq_true_eq, not_or, not_not] at this
        rw [← this.1]; exact hx.2
      · have := hnc _ (hinv1.sub _ he)
        simp only [crosses, decide_eq_true_eq, not_or, not_not] at this
        rw [this.1]; exact hx.2
    have hfin : ReachIn ⟨G.nodes, kruskal l⟩ (region G attr key a) u v ∧ v ∈ region G attr key a := by
      clear hv
      induction huv with
      | refl => exact ⟨Relation.ReflTransGen.refl, hu⟩
      | tail _ hab ih =>
        have hb := hstep _ _ ih.2 hab
        exact ⟨ih.1.tail ⟨hab.1.imp (fun x => hmono x) (fun x => hmono x), ih.2, hb⟩, hb⟩
    exact hfin.1

theorem spanOk_random {A : Type} [DecidableEq A] {R : Rand S} (hR : R.Valid) (attr : String → V → Option A)
    (surcharge : Option (Dict String ℚ)) : SpanOk (V := V) (randomSpanningTree R attr surcharge) := by
  intro G w t w' hG hconn h
  obtain ⟨t1, w1, g1, g2, _⟩ := C42_random_spanning_tree hR attr surcharge G hG hconn w
  rw [h] at g1
  cases g1
  exact Or.inl g2

/-- the edges of `T` between different classes of a labelling -/
def crossing {B : Type} [DecidableEq B] (T : Graph V) (lab : V → B) : Finset (V × V) := T.edges.filter (fun e => lab e.1 ≠ lab e.2)

/-- A connected graph needs at least one crossing edge less than there are classes. -/
theorem classes_le_crossing {B : Type} [DecidableEq B] {T : Graph V} (h : ConnectedOn T T.nodes) (lab : V → B) :
    (T.nodes.image lab).card ≤ (crossing T lab).card + 1 := by
  set Q : Graph B := ⟨T.nodes.image lab, (crossing T lab).image (fun e => (lab e.1, lab e.2))⟩ with hQ
  have hstep : ∀ u v, ReachIn T T.nodes u v → ReachIn Q Q.nodes (lab u) (lab v) := by
    intro u v huv
    induction huv with
    | refl => exact Relation.ReflTransGen.refl
    | @tail b c _ hab ih =>
      by_cases hne : lab b = lab c
      · rw [← hne]; exact ih
      · refine ih.tail ⟨?_, Finset.mem_image_of_mem _ hab.2.1, Finset.mem_image_of_mem _ hab.2.2⟩
        rcases hab.1 with he | he
        · exact Or.inl (Finset.mem_image.2 ⟨_, Finset.mem_filter.2 ⟨he, hne⟩, rfl⟩)
        · exact Or.inr (Finset.mem_image.2 ⟨_, Finset.mem_filter.2 ⟨he, fun h => hne h.symm⟩, rfl⟩)
  have hconn : ConnectedOn Q Q.nodes := by
    refine ⟨h.1.image lab, ?_⟩
    intro x hx y hy
    obtain ⟨u, hu, rfl⟩ := Finset.mem_image.1 hx
    obtain ⟨v, hv, rfl⟩ := Finset.mem_image.1 hy
    exact hstep u v (h.2 u hu v hv)
  have h1 := card_le_of_connected hconn
  have h2 : (Q.edges.filter (fun e => e.1 ∈ Q.nodes ∧ e.2 ∈ Q.nodes)).card ≤ (crossing T lab).card :=
    (Finset.card_filter_le _ _).trans Finset.card_image_le
  exact h1.trans (by omega)

/-- If the classes are connected inside a tree, the tree has exactly one crossing edge less than there are classes. -/
theorem crossing_of_connected_classes {B : Type} [DecidableEq B] {T : Graph V} (hT : IsTree T) (lab : V → B)
    (h : ∀ b ∈ T.nodes.image lab, ConnectedOn T (T.nodes.filter (fun v => lab v = b))) :
    (crossing T lab).card + 1 = (T.nodes.image lab).card := by
  refine Nat.le_antisymm ?_ (classes_le_crossing hT.conn lab)
  set I := T.edges.filter (fun e => lab e.1 = lab e.2) with hI
  have hsplit : I.card + (crossing T lab).card = T.edges.card :=
    Finset.card_filter_add_card_filter_not (s := T.edges) (fun e => lab e.1 = lab e.2)
  have hnodes : T.nodes.card = ∑ b ∈ T.nodes.image lab, (T.nodes.filter (fun v => lab v = b)).card :=
    Finset.card_eq_sum_card_fiberwise (fun v hv => Finset.mem_image_of_mem _ hv)
  have hinner : I.card = ∑ b ∈ T.nodes.image lab, (I.filter (fun e => lab e.1 = b)).card :=
    Finset.card_eq_sum_card_fiberwise (fun e he =>
      Finset.mem_image_of_mem _ (hT.wf.fst_mem e (Finset.mem_filter.1 he).1))
  have hle : T.nodes.card ≤ ∑ b ∈ T.nodes.image lab, ((I.filter (fun e => lab e.1 = b)).card + 1) := by
    rw [hnodes]
    refine Finset.sum_le_sum fun b hb => ?_
    refine (card_le_of_connected (h b hb)).trans (Nat.add_le_add_right (Finset.card_le_card ?_) 1)
    intro e he
    simp only [hI, Finset.mem_filter] at he ⊢
    exact ⟨⟨he.1, by rw [he.2.1.2, he.2.2.2]⟩, he.2.1.2⟩
  rw [Finset.sum_add_distrib, ← hinner, Finset.sum_const, smul_eq_mul, mul_one] at hle
  have := hT.card
  omega

/-- **C42** If every node belongs to a region and every region is connected in the graph, then the tree has as few
region-crossing edges as a spanning tree can have: one less than there are regions. -/
theorem C42_crossing_edges {A : Type} [DecidableEq A] {R : Rand S} (hR : R.Valid) (attr : String → V → Option A)
    (d : Dict String ℚ) (G : Graph V) (hG : G.WF) (hconn : ConnectedOn G G.nodes) (key : String) (c : ℚ)
    (hkey : (key, c) ∈ d.entries) (hpos : ∀ kv ∈ d.entries, 0 ≤ kv.2) (hbig : 1 + otherSurcharges d key ≤ c)
    (hsome : ∀ v ∈ G.nodes, attr key v ≠ none) (hreg : ∀ a, (region G attr key a).Nonempty → ConnectedOn G (region G attr key a))
    (w w' : S) (t : WTree V) (hret : randomSpanningTree R attr (some d) G w = (.ok t, w')) :
    (crossing t.graph (attr key)).card + 1 = (G.nodes.image (attr key)).card ∧
    ∀ T', IsSpanningTree T' G → (crossing t.graph (attr key)).card ≤ (crossing T' (attr key)).card := by
  obtain ⟨t1, w1, g1, g2, _, g3⟩ := C42_random_spanning_tree hR attr (some d) G hG hconn w
  rw [hret] at g1
  cases g1
  have h1 : (crossing t.graph (attr key)).card + 1 = (G.nodes.image (attr key)).card := by
    rw [← g2.nodes]
    refine crossing_of_connected_classes g2.tree (attr key) ?_
    rw [g2.nodes]
    intro b hb
    obtain ⟨v, hv, rfl⟩ := Finset.mem_image.1 hb
    obtain ⟨a, ha⟩ := Option.ne_none_iff_exists'.1 (hsome v hv)
    rw [ha]
    have hc := g3 d key c rfl hkey hpos hbig a (hreg a ⟨v, Finset.mem_filter.2 ⟨hv, ha⟩⟩)
    exact hc
  refine ⟨h1, fun T' hT' => ?_⟩
  have h2 := classes_le_crossing hT'.tree.conn (attr key)
  rw [hT'.nodes] at h2
  omega

/-! ## Examples -/


/-- hypotheses of C41 met: a run in which the first walk has a loop (0, 1, 0, 3, 2) that is erased -/
example : tapeRand.Valid ∧ ConnectedOn exCyc exCyc.nodes ∧ 2 ≤ exCyc.nodes.card ∧
    ((uniformSpanningTree tapeRand 20 exCyc [2, 0, 0, 1, 2, 1, 0, 0]).1.toOption.map (fun t => iterE t.graph.edges)) =
      some [(0, 3), (1, 3), (3, 2), (4, 3), (5, 4)] :=
  ⟨tapeRand_valid, exCyc_conn, by decide, by decide +kernel⟩

/-- the second outcome of C41_outcomes: an endless walk -/
example : (uniformSpanningTree tapeRand 20 exCyc [2]).1 = .error .outOfFuel := by rfl

/-- a single node: no edges -/
example : ((uniformSpanningTree tapeRand 20 (⟨{7}, ∅⟩ : Graph ℕ) []).1.map (fun t => (t.graph.nodes, t.graph.edges))) = .ok (∅, ∅) := by
  decide +kernel

/-- a generator whose random numbers are tenths from a tape -/
def tenthsRand : Rand (List ℕ) where
  choice := tapeRand.choice
  random := fun s => (.ok ((s.headD 0 % 10 : ℕ) / 10), s.tail)

theorem tenthsRand_valid : tenthsRand.Valid where
  choice_mem := tapeRand_valid.choice_mem
  choice_nil := tapeRand_valid.choice_nil
  random_ok := fun s => ⟨_, _, rfl, by positivity, by
    rw [div_lt_one (by norm_num)]
    exact_mod_cast Nat.mod_lt _ (by norm_num)⟩

/-- the cycle with four nodes -/
def exSquare : Graph ℕ := ⟨{0, 1, 2, 3}, {(0, 1), (1, 2), (2, 3), (0, 3)}⟩

theorem exSquare_wf : exSquare.WF := ⟨by decide, by decide, by decide⟩

theorem exSquare_conn : ConnectedOn exSquare exSquare.nodes := by
  rw [← nxIsConnected_true exSquare_wf]
  decide +kernel

/-- two attributes: `county` splits the square into `{0, 1}` and `{2, 3}`, `town` into `{0, 3}` and `{1, 2}` -/
def squareAttr : String → ℕ → Option ℕ := fun k v =>
  if k = "county" then some (if v = 0 ∨ v = 1 then 0 else 1) else some (if v = 0 ∨ v = 3 then 0 else 1)

def oneSurcharge : Dict String ℚ := Dict.empty.set "county" 1
def twoSurcharges : Dict String ℚ := (Dict.empty.set "county" 1).set "town" 1

/-- hypotheses of C42 met: the random numbers prefer the edges between the counties, the surcharge of 1 outweighs them -/
example : tenthsRand.Valid ∧ exSquare.WF ∧ ConnectedOn exSquare exSquare.nodes ∧ ("county", 1) ∈ oneSurcharge.entries ∧
    (∀ kv ∈ oneSurcharge.entries, 0 ≤ kv.2) ∧ 1 + otherSurcharges oneSurcharge "county" ≤ 1 ∧
    (∀ v ∈ exSquare.nodes, squareAttr "county" v ≠ none) ∧
    (∀ a, (region exSquare squareAttr "county" a).Nonempty → ConnectedOn exSquare (region exSquare squareAttr "county" a)) ∧
    ((randomSpanningTree tenthsRand squareAttr (some oneSurcharge) exSquare [9, 0, 1, 8]).1.toOption.map (fun t => iterE t.graph.edges)) =
      some [(0, 1), (0, 3), (2, 3)] := by
  refine ⟨tenthsRand_valid, exSquare_wf, exSquare_conn, by decide, by decide, by decide +kernel, by decide, ?_, by decide +kernel⟩
  rintro a ⟨v, hv⟩
  have hv' := Finset.mem_filter.1 hv
  have : a = 0 ∨ a = 1 := by
    have h : squareAttr "county" v = some 0 ∨ squareAttr "county" v = some 1 := by
      unfold squareAttr; simp only [if_true]; split_ifs <;> simp
    rcases h with h | h <;> rw [h] at hv' <;> simp at hv' <;> omega
  rcases this with rfl | rfl <;> 
    rw [← connectedOn_subgraph (region_subset exSquare _ _ _), ← nxIsConnected_true (exSquare_wf.subgraph _)] <;> decide +kernel

/-- The bound on the other surcharges is needed: with a surcharge of 1 on each of two attributes a county that is connected
in the graph need not be connected in the tree. -/
theorem C42_two_attributes :
    ∃ t w', randomSpanningTree tenthsRand squareAttr (some twoSurcharges) exSquare [9, 0, 1, 0] = (.ok t, w') ∧
      ConnectedOn exSquare (region exSquare squareAttr "county" 0) ∧ ¬ ConnectedOn t.graph (region exSquare squareAttr "county" 0) := by
  obtain ⟨t, w', g1, g2, _⟩ := C42_random_spanning_tree tenthsRand_valid squareAttr (some twoSurcharges) exSquare exSquare_wf
    exSquare_conn [9, 0, 1, 0]
  have he : ((randomSpanningTree tenthsRand squareAttr (some twoSurcharges) exSquare [9, 0, 1, 0]).1.toOption.map
      (fun t => iterE t.graph.edges)) = some [(0, 3), (1, 2), (2, 3)] := by decide +kernel
  rw [g1] at he
  have he : some (iterE t.graph.edges) = some [(0, 3), (1, 2), (2, 3)] := he
  have hedges : t.graph.edges = {(0, 3), (1, 2), (2, 3)} := by
    ext e
    rw [← mem_iterE, Option.some.inj he]
    simp
  have hgraph : t.graph = ⟨exSquare.nodes, {(0, 3), (1, 2), (2, 3)}⟩ := by
    rw [← hedges, ← g2.nodes]
  refine ⟨t, w', g1, ?_, ?_⟩
  · rw [← connectedOn_subgraph (region_subset exSquare _ _ _), ← nxIsConnected_true (exSquare_wf.subgraph _)]; decide +kernel
  · have hwf : (⟨exSquare.nodes, {(0, 3), (1, 2), (2, 3)}⟩ : Graph ℕ).WF := ⟨by decide, by decide, by decide⟩
    rw [hgraph, ← connectedOn_subgraph (G := ⟨exSquare.nodes, {(0, 3), (1, 2), (2, 3)}⟩) (region_subset exSquare _ _ _), ← nxIsConnected_true (hwf.subgraph _)]
    decide +kernel

end GC

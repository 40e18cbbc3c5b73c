import Verif.Props.RecomSupport
import Mathlib.Algebra.Order.BigOperators.Ring.Finset
import Mathlib.Data.List.Sort

/-!
# Kruskal's algorithm returns the lightest tree

The tree that Kruskal's algorithm builds is compared with all other spanning trees: among the `k` lightest edges it takes at least as many as
any other tree, for every `k`, hence its total weight is the least.
-/

set_option linter.unusedSectionVars false
set_option autoImplicit false

namespace GC

variable {V : Type} [LinearOrder V]

/-- the edges in the order of the weights, the first edge first among equals -/
def byWeight (x : V × V → ℚ) (es : List (V × V)) : List (V × V) := es.insertionSort (fun a b => x a ≤ x b)

/-- the tree that is built from the edges in a given order -/
def greedyTree {V : Type} [DecidableEq V] (o : List (V × V)) : Finset (V × V) := (o.foldl kruskalStep (id, ∅)).2

theorem kruskal_map (x : V × V → ℚ) (es : List (V × V)) : kruskal (es.map (fun e => (x e, e))) = greedyTree (byWeight x es) := by
  unfold kruskal greedyTree byWeight
  rw [← List.map_insertionSort (r := fun a b => x a ≤ x b) (s := fun a b : ℚ × (V × V) => a.1 ≤ b.1) (fun e => (x e, e)) es (fun a _ b _ => Iff.rfl),
    List.map_map]
  simp [Function.comp_def]

theorem byWeight_congr {x y : V × V → ℚ} {es : List (V × V)} (h : ∀ a ∈ es, ∀ b ∈ es, x a ≤ x b ↔ y a ≤ y b) : byWeight x es = byWeight y es := by
  have := List.map_insertionSort (r := fun a b => x a ≤ x b) (s := fun a b => y a ≤ y b) id es h
  simpa [byWeight] using this

theorem byWeight_perm (x : V × V → ℚ) (es : List (V × V)) : (byWeight x es).Perm es := List.perm_insertionSort _ _

theorem byWeight_sorted (x : V × V → ℚ) (es : List (V × V)) : (byWeight x es).Pairwise (fun a b => x a ≤ x b) := by
  have tr : IsTrans (V × V) (fun a b => x a ≤ x b) := ⟨fun _ _ _ h h' => le_trans h h'⟩
  have tot : Std.Total (fun a b : V × V => x a ≤ x b) := ⟨fun a b => le_total _ _⟩
  exact List.pairwise_insertionSort _ es

/-! ### Trees and prefixes -/

theorem fold_sub {V : Type} [DecidableEq V] (o : List (V × V)) : ∀ st : (V → V) × Finset (V × V), (o.foldl kruskalStep st).2 ⊆ st.2 ∪ o.toFinset := by
  induction o with
  | nil => intro st; simp
  | cons e o ih =>
    intro st f hf
    have h1 := ih (kruskalStep st e) hf
    rw [Finset.mem_union, List.mem_toFinset] at h1
    rw [Finset.mem_union, List.mem_toFinset, List.mem_cons]
    rcases h1 with h1 | h1
    · unfold kruskalStep at h1
      split_ifs at h1
      · exact Or.inl h1
      · rcases Finset.mem_insert.1 h1 with h1 | h1
        · exact Or.inr (Or.inl h1)
        · exact Or.inl h1
    · exact Or.inr (Or.inr h1)

/-- the number of pieces that are left after edges are joined -/
def pieces {V : Type} [DecidableEq V] (N : Finset V) (o : List (V × V)) : ℕ := (N.image (o.foldl kruskalStep (id, ∅)).1).card

theorem greedy_card {V : Type} [DecidableEq V] {N : Finset V} {o : List (V × V)} (ho : ∀ e ∈ o, e.1 ∈ N ∧ e.2 ∈ N) :
    (greedyTree o).card + pieces N o = N.card := by
  have h := (kruskalFold_inv (N := N) o [] (id, ∅) ho (kruskal_init_inv N)).1
  exact h.card

/-- more edges, fewer pieces -/
theorem pieces_le {V : Type} [DecidableEq V] {N : Finset V} {o o' : List (V × V)} (ho : ∀ e ∈ o, e.1 ∈ N ∧ e.2 ∈ N)
    (ho' : ∀ e ∈ o', e.1 ∈ N ∧ e.2 ∈ N) (hsub : ∀ e ∈ o, e ∈ o') : pieces N o' ≤ pieces N o := by
  classical
  have h := (kruskalFold_inv (N := N) o [] (id, ∅) ho (kruskal_init_inv N)).1
  have h' := (kruskalFold_inv (N := N) o' [] (id, ∅) ho' (kruskal_init_inv N)).1
  unfold pieces
  rw [List.nil_append] at h h'
  set f := (o.foldl kruskalStep (id, ∅)).1 with hf
  set f' := (o'.foldl kruskalStep (id, ∅)).1 with hf'
  have hcl : ∀ u ∈ N, ∀ v ∈ N, f u = f v → f' u = f' v := by
    intro u hu v hv huv
    refine kruskal_one_set h' (fun e he _ _ => ?_) (h.reach u hu v hv huv)
    exact hsub e (h.sub e he)
  rcases N.eq_empty_or_nonempty with rfl | ⟨z, hz⟩
  · simp
  have : Nonempty V := ⟨z⟩
  have hs : N.image f' ⊆ (N.image f).image (fun y => f' (Function.invFunOn f (N : Set V) y)) := by
    intro y hy
    obtain ⟨u, hu, rfl⟩ := Finset.mem_image.1 hy
    refine Finset.mem_image.2 ⟨f u, Finset.mem_image_of_mem _ hu, ?_⟩
    have hex : ∃ a ∈ (N : Set V), f a = f u := ⟨u, hu, rfl⟩
    exact hcl _ (Function.invFunOn_mem hex) _ hu (Function.invFunOn_eq hex)
  exact (Finset.card_le_card hs).trans Finset.card_image_le

/-- no edge of a tree is refused when the edges of the tree come first -/
theorem greedy_of_tree {G : Graph V} (hG : G.WF) {F : Finset (V × V)} (hF : F ∈ treeSets G) {o : List (V × V)} (ho : o.Nodup) (hoF : ∀ e ∈ o, e ∈ F) :
    greedyTree o = o.toFinset := by
  classical
  unfold treeSets at hF
  rw [Finset.mem_filter, Finset.mem_powerset] at hF
  obtain ⟨hsub, hT⟩ := hF
  have hEnd : ∀ e ∈ F, e.1 ∈ G.nodes ∧ e.2 ∈ G.nodes := fun e he => ⟨hG.fst_mem e (hsub he), hG.snd_mem e (hsub he)⟩
  set r := (F.filter (fun e => e ∉ o)).toList with hr
  have hrF : ∀ e ∈ r, e ∈ F := fun e he => by
    rw [hr, Finset.mem_toList, Finset.mem_filter] at he
    exact he.1
  have hall : ∀ e ∈ F, e ∈ o ++ r := fun e he => by
    rw [List.mem_append, hr, Finset.mem_toList, Finset.mem_filter]
    by_cases h : e ∈ o
    · exact Or.inl h
    · exact Or.inr ⟨he, h⟩
  have hor : ∀ e ∈ o ++ r, e.1 ∈ G.nodes ∧ e.2 ∈ G.nodes := fun e he => hEnd e (by
    rcases List.mem_append.1 he with h | h
    · exact hoF e h
    · exact hrF e h)
  have hinv := (kruskalFold_inv (N := G.nodes) (o ++ r) [] (id, ∅) hor (kruskal_init_inv _)).1
  obtain ⟨x, hx⟩ := hT.conn.1
  have himg : G.nodes.image ((o ++ r).foldl kruskalStep (id, ∅)).1 = {((o ++ r).foldl kruskalStep (id, ∅)).1 x} := by
    ext y
    rw [Finset.mem_image, Finset.mem_singleton]
    constructor
    · rintro ⟨v, hv, rfl⟩
      exact kruskal_one_set hinv (G := ⟨G.nodes, F⟩) (fun e he _ _ => hall e he) (hT.conn.2 v hv x hx)
    · rintro rfl
      exact ⟨x, hx, rfl⟩
  have hc := hinv.card
  rw [himg, Finset.card_singleton] at hc
  have hcF := hT.card
  simp only at hcF
  have s1 : ((o ++ r).foldl kruskalStep (id, ∅)).2 ⊆ greedyTree o ∪ r.toFinset := by
    rw [List.foldl_append]
    exact fold_sub r _
  have s2 : greedyTree o ⊆ o.toFinset := by
    have := fold_sub o (id, ∅)
    unfold greedyTree
    simpa using this
  have c1 := (Finset.card_le_card s1).trans (Finset.card_union_le _ _)
  have c2 : o.toFinset.card + r.toFinset.card = F.card := by
    have e1 : o.toFinset = F.filter (fun e => e ∈ o) := by
      ext e
      rw [List.mem_toFinset, Finset.mem_filter]
      exact ⟨fun h => ⟨hoF e h, h⟩, fun h => h.2⟩
    have e2 : r.toFinset = F.filter (fun e => ¬ e ∈ o) := by
      rw [hr, Finset.toList_toFinset]
    rw [e1, e2]
    exact Finset.card_filter_add_card_filter_not _
  exact Finset.eq_of_subset_of_card_le s2 (by omega)

/-- among the first edges the greedy tree takes at least as many as any other tree -/
theorem greedy_prefix {G : Graph V} (hG : G.WF) {F : Finset (V × V)} (hF : F ∈ treeSets G) {p s : List (V × V)} (hn : (p ++ s).Nodup)
    (hmem : ∀ e ∈ p ++ s, e ∈ G.edges) : (F.filter (fun e => e ∈ p)).card ≤ ((greedyTree (p ++ s)).filter (fun e => e ∈ p)).card := by
  classical
  have hEnd : ∀ e ∈ G.edges, e.1 ∈ G.nodes ∧ e.2 ∈ G.nodes := fun e he => ⟨hG.fst_mem e he, hG.snd_mem e he⟩
  have hFG : ∀ e ∈ F, e ∈ G.edges := by
    unfold treeSets at hF
    rw [Finset.mem_filter, Finset.mem_powerset] at hF
    exact fun e he => hF.1 he
  set q := (F.filter (fun e => e ∈ p)).toList with hq
  have hqF : ∀ e ∈ q, e ∈ F ∧ e ∈ p := fun e he => by
    rw [hq, Finset.mem_toList, Finset.mem_filter] at he
    exact he
  have hp : ∀ e ∈ p, e.1 ∈ G.nodes ∧ e.2 ∈ G.nodes := fun e he => hEnd e (hmem e (List.mem_append_left _ he))
  have hqe : ∀ e ∈ q, e.1 ∈ G.nodes ∧ e.2 ∈ G.nodes := fun e he => hEnd e (hFG e (hqF e he).1)
  have g1 := greedy_of_tree hG hF (o := q) (Finset.nodup_toList _) (fun e he => (hqF e he).1)
  have g2 := greedy_card hqe
  have g3 := greedy_card hp
  have g4 := pieces_le hqe hp (fun e he => (hqF e he).2)
  have g5 : q.toFinset = F.filter (fun e => e ∈ p) := by rw [hq, Finset.toList_toFinset]
  rw [g1, g5] at g2
  have g6 : greedyTree p ⊆ (greedyTree (p ++ s)).filter (fun e => e ∈ p) := by
    intro e he
    rw [Finset.mem_filter]
    refine ⟨?_, ?_⟩
    · have := (kruskalFold_inv (N := G.nodes) s p (p.foldl kruskalStep (id, ∅)) (fun e he => hEnd e (hmem e (List.mem_append_right _ he)))
        (by simpa using (kruskalFold_inv (N := G.nodes) p [] (id, ∅) hp (kruskal_init_inv _)).1)).2
      rw [← List.foldl_append] at this
      exact this he
    · have := fold_sub p (id, ∅) he
      simpa using this
  have := Finset.card_le_card g6
  omega

/-! ### Weighted sums -/

theorem weighted_sum {α : Type} (x g : α → ℚ) : ∀ (L : List α), L.Pairwise (fun a b => x a ≤ x b) → (∀ p s, L = p ++ s → (p.map g).sum ≤ 0) →
    ∀ c, (∀ e ∈ L, x e ≤ c) → c * (L.map g).sum ≤ (L.map (fun e => x e * g e)).sum := by
  intro L
  induction L using List.reverseRecOn with
  | nil => intro _ _ c _; simp
  | append_singleton L a ih =>
    intro hs hp c hc
    rw [List.pairwise_append] at hs
    have h1 := ih hs.1 (fun p s h => hp p (s ++ [a]) (by rw [h, List.append_assoc])) (x a) (fun e he => hs.2.2 e he a (by simp))
    have h2 := hp (L ++ [a]) [] (by simp)
    have h3 := hc a (by simp)
    rw [List.map_append, List.sum_append] at h2 ⊢
    rw [List.map_append, List.sum_append]
    simp only [List.map_cons, List.map_nil, List.sum_cons, List.sum_nil, add_zero] at h2 ⊢
    nlinarith

theorem weighted_sum_strict {α : Type} (x g : α → ℚ) : ∀ (L : List α), L.Pairwise (fun a b => x a < x b) → (∀ p s, L = p ++ s → (p.map g).sum ≤ 0) →
    ∀ c, (∀ e ∈ L, x e < c) → (∀ e ∈ L, g e = 0) ∨ c * (L.map g).sum < (L.map (fun e => x e * g e)).sum := by
  intro L
  induction L using List.reverseRecOn with
  | nil => intro _ _ c _; left; simp
  | append_singleton L a ih =>
    intro hs hp c hc
    rw [List.pairwise_append] at hs
    have h1 := ih hs.1 (fun p s h => hp p (s ++ [a]) (by rw [h, List.append_assoc])) (x a) (fun e he => hs.2.2 e he a (by simp))
    have h2 := hp (L ++ [a]) [] (by simp)
    have h3 := hc a (by simp)
    rw [List.map_append, List.sum_append] at h2
    simp only [List.map_append, List.sum_append, List.map_cons, List.map_nil, List.sum_cons, List.sum_nil, add_zero] at h2 ⊢
    rcases h1 with h1 | h1
    · have z1 : (L.map g).sum = 0 := List.sum_eq_zero (fun y hy => by
        obtain ⟨e, he, rfl⟩ := List.mem_map.1 hy
        exact h1 e he)
      have z2 : (L.map (fun e => x e * g e)).sum = 0 := List.sum_eq_zero (fun y hy => by
        obtain ⟨e, he, rfl⟩ := List.mem_map.1 hy
        simp [h1 e he])
      rw [z1] at h2
      rw [z1, z2]
      rcases eq_or_lt_of_le (show g a ≤ 0 by linarith) with h | h
      · left
        intro e he
        rcases List.mem_append.1 he with he | he
        · exact h1 e he
        · rw [List.mem_singleton.1 he, h]
      · right
        nlinarith
    · right
      nlinarith

/-! ### The lightest tree -/

/-- the total weight of a set of edges -/
def totalWeight (x : V × V → ℚ) (E : Finset (V × V)) : ℚ := ∑ e ∈ E, x e

section

variable {G : Graph V} {es : List (V × V)} {x : V × V → ℚ}

theorem byWeight_mem (hes : ∀ e, e ∈ es ↔ e ∈ G.edges) (e : V × V) : e ∈ byWeight x es ↔ e ∈ G.edges :=
  ((byWeight_perm x es).mem_iff).trans (hes e)

theorem greedy_mem_treeSets (hG : G.WF) (hconn : ConnectedOn G G.nodes) {o : List (V × V)} (ho : ∀ e, e ∈ o ↔ e ∈ G.edges) : greedyTree o ∈ treeSets G := by
  classical
  have hEnd : ∀ e ∈ o, e.1 ∈ G.nodes ∧ e.2 ∈ G.nodes := fun e he => ⟨hG.fst_mem e ((ho e).1 he), hG.snd_mem e ((ho e).1 he)⟩
  have hinv := (kruskalFold_inv (N := G.nodes) o [] (id, ∅) hEnd (kruskal_init_inv _)).1
  rw [List.nil_append] at hinv
  have hsub : greedyTree o ⊆ G.edges := fun e he => (ho e).1 (hinv.sub e he)
  obtain ⟨z, hz⟩ := hconn.1
  have hone : ∀ v ∈ G.nodes, ∀ u ∈ G.nodes, (o.foldl kruskalStep (id, ∅)).1 v = (o.foldl kruskalStep (id, ∅)).1 u := fun v hv u hu =>
    kruskal_one_set hinv (G := G) (fun e he _ _ => (ho e).2 he) (hconn.2 v hv u hu)
  have himg : G.nodes.image (o.foldl kruskalStep (id, ∅)).1 = {(o.foldl kruskalStep (id, ∅)).1 z} := by
    ext y
    rw [Finset.mem_image, Finset.mem_singleton]
    constructor
    · rintro ⟨v, hv, rfl⟩
      exact hone v hv z hz
    · rintro rfl
      exact ⟨z, hz, rfl⟩
  have hc := hinv.card
  rw [himg, Finset.card_singleton] at hc
  unfold treeSets
  rw [Finset.mem_filter, Finset.mem_powerset]
  refine ⟨hsub, ?_, ?_, hc⟩
  · exact ⟨fun e he => hG.fst_mem e (hsub he), fun e he => hG.snd_mem e (hsub he), fun e he h1 h2 => hG.asymm e (hsub he) h1 (hsub h2)⟩
  · exact ⟨⟨z, hz⟩, fun v hv u hu => hinv.reach v hv u hu (hone v hv u hu)⟩

theorem greedy_sums (hG : G.WF) (hn : es.Nodup) (hes : ∀ e, e ∈ es ↔ e ∈ G.edges) {F : Finset (V × V)} (hF : F ∈ treeSets G) (x : V × V → ℚ) :
    (∀ p s, byWeight x es = p ++ s → (p.map (fun e => (if e ∈ F then 1 else 0) - (if e ∈ greedyTree (byWeight x es) then 1 else 0 : ℚ))).sum ≤ 0) ∧
    (∀ y : V × V → ℚ, ((byWeight x es).map (fun e => y e * ((if e ∈ F then 1 else 0) - (if e ∈ greedyTree (byWeight x es) then 1 else 0)))).sum =
      totalWeight y F - totalWeight y (greedyTree (byWeight x es))) := by
  classical
  have hnd : (byWeight x es).Nodup := (byWeight_perm x es).nodup_iff.2 hn
  have hFG : F ⊆ G.edges := by
    unfold treeSets at hF
    rw [Finset.mem_filter, Finset.mem_powerset] at hF
    exact hF.1
  set K := greedyTree (byWeight x es) with hK
  have hKG : K ⊆ G.edges := fun e he => by
    have := fold_sub (byWeight x es) (id, ∅) he
    exact (byWeight_mem hes e).1 (by simpa using this)
  constructor
  · intro p s h
    have hps : (p ++ s).Nodup := h ▸ hnd
    have hle := greedy_prefix hG hF hps (fun e he => (byWeight_mem hes e).1 (h ▸ he))
    rw [← h, ← hK] at hle
    have hp : p.Nodup := (List.nodup_append.1 hps).1
    rw [← List.sum_toFinset _ hp, Finset.sum_sub_distrib, ← Finset.sum_filter, ← Finset.sum_filter, Finset.sum_const, Finset.sum_const]
    have e1 : ∀ X : Finset (V × V), p.toFinset.filter (fun e => e ∈ X) = X.filter (fun e => e ∈ p) := by
      intro X
      ext e
      rw [Finset.mem_filter, Finset.mem_filter, List.mem_toFinset]
      exact and_comm
    rw [e1, e1]
    simp only [nsmul_eq_mul, mul_one]
    have : ((F.filter (fun e => e ∈ p)).card : ℚ) ≤ ((K.filter (fun e => e ∈ p)).card : ℚ) := by exact_mod_cast hle
    linarith
  · intro y
    rw [← List.sum_toFinset _ hnd]
    have e1 : (byWeight x es).toFinset = G.edges := by
      ext e
      rw [List.mem_toFinset, byWeight_mem hes]
    rw [e1]
    simp only [mul_sub, mul_ite, mul_one, mul_zero, Finset.sum_sub_distrib]
    rw [← Finset.sum_filter, ← Finset.sum_filter, Finset.filter_mem_eq_inter, Finset.filter_mem_eq_inter, Finset.inter_eq_right.2 hFG, Finset.inter_eq_right.2 hKG]
    rfl

/-- the greedy tree is the lightest -/
theorem greedy_lightest (hG : G.WF) (hn : es.Nodup) (hes : ∀ e, e ∈ es ↔ e ∈ G.edges) (hconn : ConnectedOn G G.nodes) {F : Finset (V × V)} (hF : F ∈ treeSets G)
    (x : V × V → ℚ) : totalWeight x (greedyTree (byWeight x es)) ≤ totalWeight x F := by
  classical
  obtain ⟨h1, h2⟩ := greedy_sums hG hn hes hF x
  have hK := greedy_mem_treeSets hG hconn (o := byWeight x es) (byWeight_mem hes)
  have hcard : totalWeight (fun _ => 1) F = totalWeight (fun _ => 1) (greedyTree (byWeight x es)) := by
    unfold treeSets at hF hK
    have a := (Finset.mem_filter.1 hF).2.card
    have b := (Finset.mem_filter.1 hK).2.card
    simp only at a b
    unfold totalWeight
    rw [Finset.sum_const, Finset.sum_const]
    congr 1
    omega
  obtain ⟨c, hc⟩ : ∃ c, ∀ e ∈ byWeight x es, x e ≤ c := by
    refine ⟨∑ e ∈ G.edges, |x e|, fun e he => (le_abs_self _).trans ?_⟩
    exact Finset.single_le_sum (f := fun e => |x e|) (fun _ _ => abs_nonneg _) ((byWeight_mem hes e).1 he)
  have := weighted_sum x _ (byWeight x es) (byWeight_sorted x es) h1 c hc
  have e1 := h2 (fun _ => 1)
  simp only [one_mul] at e1
  rw [h2 x, e1, hcard, sub_self, mul_zero] at this
  linarith

/-- with different weights there is only one lightest tree -/
theorem greedy_unique (hG : G.WF) (hn : es.Nodup) (hes : ∀ e, e ∈ es ↔ e ∈ G.edges) (hconn : ConnectedOn G G.nodes) {F : Finset (V × V)} (hF : F ∈ treeSets G)
    (x : V × V → ℚ) (hinj : ∀ a ∈ G.edges, ∀ b ∈ G.edges, x a = x b → a = b) (hle : totalWeight x F ≤ totalWeight x (greedyTree (byWeight x es))) :
    greedyTree (byWeight x es) = F := by
  classical
  obtain ⟨h1, h2⟩ := greedy_sums hG hn hes hF x
  have hK := greedy_mem_treeSets hG hconn (o := byWeight x es) (byWeight_mem hes)
  have hFK : F ⊆ G.edges ∧ greedyTree (byWeight x es) ⊆ G.edges := by
    unfold treeSets at hF hK
    exact ⟨Finset.mem_powerset.1 (Finset.mem_filter.1 hF).1, Finset.mem_powerset.1 (Finset.mem_filter.1 hK).1⟩
  have hcard : totalWeight (fun _ => 1) F = totalWeight (fun _ => 1) (greedyTree (byWeight x es)) := by
    unfold treeSets at hF hK
    have a := (Finset.mem_filter.1 hF).2.card
    have b := (Finset.mem_filter.1 hK).2.card
    simp only at a b
    unfold totalWeight
    rw [Finset.sum_const, Finset.sum_const]
    congr 1
    omega
  have hnd : (byWeight x es).Nodup := (byWeight_perm x es).nodup_iff.2 hn
  have hstrict : (byWeight x es).Pairwise (fun a b => x a < x b) := by
    refine ((byWeight_sorted x es).and hnd).imp_of_mem (fun {a b} ha hb h => ?_)
    exact lt_of_le_of_ne h.1 (fun e => h.2 (hinj a ((byWeight_mem hes a).1 ha) b ((byWeight_mem hes b).1 hb) e))
  obtain ⟨c, hc⟩ : ∃ c, ∀ e ∈ byWeight x es, x e < c := by
    refine ⟨∑ e ∈ G.edges, |x e| + 1, fun e he => ?_⟩
    have := Finset.single_le_sum (f := fun e => |x e|) (fun _ _ => abs_nonneg _) ((byWeight_mem hes e).1 he)
    have h3 := le_abs_self (x e)
    linarith
  have e1 := h2 (fun _ => 1)
  simp only [one_mul] at e1
  rcases weighted_sum_strict x _ (byWeight x es) hstrict h1 c hc with h | h
  · ext e
    by_cases he : e ∈ G.edges
    · have := h e ((byWeight_mem hes e).2 he)
      by_cases a : e ∈ F <;> by_cases b : e ∈ greedyTree (byWeight x es) <;> simp [a, b] at this ⊢
    · exact ⟨fun h => absurd (hFK.2 h) he, fun h => absurd (hFK.1 h) he⟩
  · rw [h2 x, e1, hcard, sub_self, mul_zero] at h
    linarith

end

end GC

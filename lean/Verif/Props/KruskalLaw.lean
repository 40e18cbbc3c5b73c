import Verif.Lemmas.KruskalCount

/-!
# Which tree the default `random_spanning_tree` returns, and how often (C97)

`random_spanning_tree` gives every edge a random weight and takes a minimum spanning tree.  The tree is the lightest for the weights drawn, also
with region surcharges; and without surcharges its probability is the share of the orders of the edges for which it is the lightest, up to the
chance that two of the numbers drawn are equal.  The distribution is not the uniform one.
-/

set_option linter.unusedSectionVars false
set_option autoImplicit false

namespace GC

open Finset

variable {V S : Type} [LinearOrder V]

/-! ### The specification -/

/-- an order of the edges: every edge has its own place -/
abbrev EdgeRanking (G : Graph V) : Type := {e : V × V // e ∈ G.edges} ≃ Fin G.edges.card

/-- the sum of the places of the edges of a set -/
def placeSum {G : Graph V} (w : EdgeRanking G) (E : Finset (V × V)) : ℕ := ∑ e : {e : V × V // e ∈ G.edges} with e.1 ∈ E, (w e : ℕ)

/-- the spanning tree is the lightest if the edges weigh as much as their place in the order -/
def LightestIn (G : Graph V) (w : EdgeRanking G) (E : Finset (V × V)) : Prop := E ∈ treeSets G ∧ ∀ F ∈ treeSets G, placeSum w E ≤ placeSum w F

open Classical in
/-- the number of orders for which the tree is the lightest -/
noncomputable def lightestOrders (G : Graph V) (E : Finset (V × V)) : ℕ := #{w : EdgeRanking G | LightestIn G w E}

/-- the program returned this spanning tree of the graph -/
def ReturnsTree (G : Graph V) (E : Finset (V × V)) (r : Py (WTree V)) : Prop := ∃ t, r = .ok t ∧ t.graph = ⟨G.nodes, E⟩

/-- the part of the weight of an edge that is not random: the surcharges of the regions it crosses -/
def surchargeOf {A : Type} [DecidableEq A] (attr : String → V → Option A) (d : Dict String ℚ) (e : V × V) : ℚ := surcharged attr d 0 e

/-! ### The lightest tree -/

theorem surcharged_add {A : Type} [DecidableEq A] (attr : String → V → Option A) (d : Dict String ℚ) (x : ℚ) (e : V × V) :
    surcharged attr d x e = x + surchargeOf attr d e := by
  unfold surchargeOf
  rw [surcharged_eq, surcharged_eq, zero_add]

theorem weightOf_mem {G : Graph V} (hG : G.WF) {l : List (ℚ × (V × V))} (hl : l.map Prod.snd = iterE G.edges) {p : ℚ × (V × V)} (hp : p ∈ l) :
    weightOf l p.2.1 p.2.2 = some p.1 := by
  have hmem : ∀ q ∈ l, q.2 ∈ G.edges := fun q hq => mem_iterE.1 (hl ▸ List.mem_map.2 ⟨q, hq, rfl⟩)
  have hnd : (l.map Prod.snd).Nodup := hl ▸ nodup_iterE _
  unfold weightOf
  have : l.find? (fun q => decide (q.2 = (p.2.1, p.2.2) ∨ q.2 = (p.2.2, p.2.1))) = some p := by
    have hsome : (l.find? (fun q => decide (q.2 = (p.2.1, p.2.2) ∨ q.2 = (p.2.2, p.2.1)))).isSome := by
      rw [List.find?_isSome]
      exact ⟨p, hp, by simp⟩
    obtain ⟨q, hq⟩ := Option.isSome_iff_exists.1 hsome
    rw [hq]
    have h1 := List.mem_of_find?_eq_some hq
    have h2 := List.find?_some hq
    rw [decide_eq_true_iff] at h2
    have h3 : q.2 = p.2 := by
      rcases h2 with h2 | h2
      · exact h2
      · have hqe := hmem q h1
        rw [h2] at hqe
        by_cases hs : p.2.1 = p.2.2
        · rw [h2]
          exact Prod.ext hs.symm hs
        · exact absurd hqe (hG.asymm p.2 (hmem p hp) hs)
    have := List.inj_on_of_nodup_map hnd h1 hp h3
    rw [this]
  rw [this]
  rfl

/-- **C97 (the lightest tree).**  Whatever the random numbers are, the tree that `random_spanning_tree` returns has the least total weight among all
spanning trees, for the weights (random number plus surcharges) that are left on its edges. -/
theorem C97_lightest {A : Type} [DecidableEq A] {R : Rand S} (hR : R.Valid) (attr : String → V → Option A) (surcharge : Option (Dict String ℚ))
    (G : Graph V) (hG : G.WF) (hconn : ConnectedOn G G.nodes) (w : S) :
    ∃ t w', randomSpanningTree R attr surcharge G w = (.ok t, w') ∧ t.graph.nodes = G.nodes ∧ t.graph.edges ∈ treeSets G ∧
      ∃ x : V × V → ℚ, (∀ e ∈ G.edges, t.weight e.1 e.2 = some (x e) ∧
          ∃ r, 0 ≤ r ∧ r < 1 ∧ x e = r + surchargeOf attr (surcharge.getD Dict.empty) e) ∧
        ∀ F ∈ treeSets G, ∑ e ∈ t.graph.edges, x e ≤ ∑ e ∈ F, x e := by
  obtain ⟨l, w', g1, g2, g3⟩ := drawWeights_ok hR attr (surcharge.getD Dict.empty) (iterE G.edges) w
  have hret : randomSpanningTree R attr surcharge G w = (.ok ⟨⟨G.nodes, kruskal l⟩, weightOf l⟩, w') := by
    unfold randomSpanningTree
    rw [M.bind_ok g1]
    rfl
  set x : V × V → ℚ := fun e => (weightOf l e.1 e.2).getD 0 with hx
  have hxl : ∀ p ∈ l, x p.2 = p.1 := fun p hp => by
    rw [hx]
    simp only
    rw [weightOf_mem hG g2 hp]
    rfl
  have hlx : l = (iterE G.edges).map (fun e => (x e, e)) := by
    rw [← g2, List.map_map]
    conv_lhs => rw [← List.map_id l]
    refine List.map_congr_left (fun p hp => ?_)
    simp only [Function.comp_apply, hxl p hp, id]
  have hk : kruskal l = greedyTree (byWeight x (iterE G.edges)) := by
    conv_lhs => rw [hlx]
    exact kruskal_map x _
  have hes : ∀ e, e ∈ iterE G.edges ↔ e ∈ G.edges := fun e => mem_iterE
  refine ⟨_, w', hret, rfl, ?_, x, fun e he => ?_, fun F hF => ?_⟩
  · simp only [hk]
    exact greedy_mem_treeSets hG hconn (byWeight_mem hes)
  · rw [← mem_iterE, ← g2, List.mem_map] at he
    obtain ⟨p, hp, rfl⟩ := he
    refine ⟨by rw [hxl p hp]; exact weightOf_mem hG g2 hp, ?_⟩
    obtain ⟨r, r0, r1, hr⟩ := g3 p hp
    exact ⟨r, r0, r1, by rw [hxl p hp, hr, surcharged_add]⟩
  · simp only [hk]
    exact greedy_lightest hG (nodup_iterE _) hes hconn hF x

/-- **C97 (surcharges).**  The surcharges on the edges of the tree add up to less than one per edge more than the least possible sum. -/
theorem C97_surcharge {A : Type} [DecidableEq A] {R : Rand S} (hR : R.Valid) (attr : String → V → Option A) (surcharge : Option (Dict String ℚ))
    (G : Graph V) (hG : G.WF) (hconn : ConnectedOn G G.nodes) (h2 : 2 ≤ G.nodes.card) (w w' : S) (t : WTree V)
    (hret : randomSpanningTree R attr surcharge G w = (.ok t, w')) (F : Finset (V × V)) (hF : F ∈ treeSets G) :
    ∑ e ∈ t.graph.edges, surchargeOf attr (surcharge.getD Dict.empty) e <
      ∑ e ∈ F, surchargeOf attr (surcharge.getD Dict.empty) e + (G.nodes.card - 1 : ℕ) := by
  classical
  obtain ⟨t', w'', g1, g2, g3, x, g4, g5⟩ := C97_lightest hR attr surcharge G hG hconn w
  rw [hret] at g1
  cases g1
  have hF' := hF
  unfold treeSets at g3 hF'
  rw [mem_filter, mem_powerset] at g3 hF'
  have hc := hF'.2.card
  simp only at hc
  have h1 : ∑ e ∈ t.graph.edges, surchargeOf attr (surcharge.getD Dict.empty) e ≤ ∑ e ∈ t.graph.edges, x e := by
    refine Finset.sum_le_sum (fun e he => ?_)
    obtain ⟨_, r, r0, r1, hr⟩ := g4 e (g3.1 he)
    linarith
  have h3 : ∑ e ∈ F, x e < ∑ e ∈ F, (surchargeOf attr (surcharge.getD Dict.empty) e + 1) := by
    refine Finset.sum_lt_sum_of_nonempty (Finset.card_pos.1 (by omega)) (fun e he => ?_)
    obtain ⟨_, r, r0, r1, hr⟩ := g4 e (hF'.1 he)
    linarith
  rw [Finset.sum_add_distrib, Finset.sum_const, nsmul_eq_mul, mul_one] at h3
  have hcard : F.card = G.nodes.card - 1 := by omega
  rw [hcard] at h3
  linarith [g5 F hF]

/-! ### The weights of a tape -/

/-- the number on the tape for an edge -/
def tapeWeight {m : ℕ} (es : List (V × V)) (τ : Fin m → ℕ) (e : V × V) : ℚ := ((List.ofFn τ).getD (es.idxOf e) 0 : ℕ)

theorem tapeWeight_get {es : List (V × V)} (hn : es.Nodup) (τ : Fin es.length → ℕ) (i : Fin es.length) : tapeWeight es τ es[i] = τ i := by
  unfold tapeWeight
  have : es.idxOf es[i] = i.val := hn.idxOf_getElem i.val i.2
  rw [this]
  simp

/-- the tree for the numbers on the tape -/
def tapeTree {m : ℕ} (es : List (V × V)) (τ : Fin m → ℕ) : Finset (V × V) := greedyTree (byWeight (tapeWeight es τ) es)

theorem tapeTree_congr {es : List (V × V)} (hn : es.Nodup) {τ τ' : Fin es.length → ℕ} (h : ∀ i j, τ i ≤ τ j ↔ τ' i ≤ τ' j) :
    tapeTree es τ = tapeTree es τ' := by
  unfold tapeTree
  rw [byWeight_congr (x := tapeWeight es τ) (y := tapeWeight es τ')]
  intro a ha b hb
  obtain ⟨i, hi, rfl⟩ := List.getElem_of_mem ha
  obtain ⟨j, hj, rfl⟩ := List.getElem_of_mem hb
  have := h ⟨i, hi⟩ ⟨j, hj⟩
  have e : ∀ (ρ : Fin es.length → ℕ) (k : ℕ) (hk : k < es.length), tapeWeight es ρ es[k] = ρ ⟨k, hk⟩ := fun ρ k hk => tapeWeight_get hn ρ ⟨k, hk⟩
  rw [e, e, e, e]
  exact_mod_cast this

theorem drawWeights_tape {A : Type} [DecidableEq A] {N : ℕ} (attr : String → V → Option A) : ∀ (es : List (V × V)) (ns rest : List ℕ),
    ns.length = es.length → (∀ n ∈ ns, n < N) →
    drawWeights (uniRand N) attr Dict.empty es (ns ++ rest) = (.ok (List.zipWith (fun (n : ℕ) e => ((n : ℚ) / N, e)) ns es), rest) := by
  intro es
  induction es with
  | nil =>
    intro ns rest h _
    have : ns = [] := List.eq_nil_of_length_eq_zero (by simpa using h)
    subst this
    rfl
  | cons e es ih =>
    intro ns rest h hn
    cases ns with
    | nil => simp at h
    | cons n ns =>
      have h1 : (uniRand N).random (n :: ns ++ rest) = (.ok ((n : ℚ) / N), ns ++ rest) := by
        show (Except.ok (((n % N : ℕ) : ℚ) / N), ns ++ rest) = _
        rw [Nat.mod_eq_of_lt (hn n (by simp))]
      have h2 := ih ns rest (by simpa using h) (fun k hk => hn k (List.mem_cons_of_mem _ hk))
      unfold drawWeights
      rw [M.bind_ok h1, M.bind_ok h2]
      rfl

theorem kruskal_zip {es : List (V × V)} (hn : es.Nodup) {N : ℕ} (hN : 0 < N) (τ : Fin es.length → ℕ) :
    kruskal (List.zipWith (fun (n : ℕ) e => ((n : ℚ) / N, e)) (List.ofFn τ) es) = tapeTree es τ := by
  have hz : List.zipWith (fun (n : ℕ) e => ((n : ℚ) / N, e)) (List.ofFn τ) es = es.map (fun e => (tapeWeight es τ e / N, e)) := by
    refine List.ext_getElem (by simp) (fun i h1 h2 => ?_)
    have hi : i < es.length := by simpa using h2
    rw [List.getElem_zipWith, List.getElem_map]
    have := tapeWeight_get hn τ ⟨i, hi⟩
    simp only [Fin.getElem_fin] at this
    rw [this]
    simp
  rw [hz, kruskal_map]
  unfold tapeTree
  rw [byWeight_congr (x := fun e => tapeWeight es τ e / N) (y := tapeWeight es τ)]
  intro a _ b _
  have : (0 : ℚ) < N := by exact_mod_cast hN
  exact div_le_div_iff_of_pos_right this

theorem randomSpanningTree_tape {A : Type} [DecidableEq A] {N : ℕ} (hN : 0 < N) (attr : String → V → Option A) (G : Graph V)
    (τ : Fin (iterE G.edges).length → Fin N) :
    ∃ t w', randomSpanningTree (uniRand N) attr none G (List.ofFn (fun i => (τ i : ℕ))) = (.ok t, w') ∧
      t.graph = ⟨G.nodes, tapeTree (iterE G.edges) (fun i => (τ i : ℕ))⟩ := by
  have g := drawWeights_tape (N := N) attr (iterE G.edges) (List.ofFn (fun i => (τ i : ℕ))) [] (by rw [List.length_ofFn]) (fun n h => by
    rw [List.mem_ofFn] at h
    obtain ⟨i, rfl⟩ := h
    exact (τ i).2)
  rw [List.append_nil] at g
  set l := List.zipWith (fun (n : ℕ) e => ((n : ℚ) / N, e)) (List.ofFn (fun i => (τ i : ℕ))) (iterE G.edges) with hl
  have h : randomSpanningTree (uniRand N) attr none G (List.ofFn (fun i => (τ i : ℕ))) = (.ok ⟨⟨G.nodes, kruskal l⟩, weightOf l⟩, []) := by
    unfold randomSpanningTree
    exact (M.bind_ok (f := fun l => (pure ⟨⟨G.nodes, kruskal l⟩, weightOf l⟩ : M Tape (WTree V))) g)
  refine ⟨_, [], h, ?_⟩
  simp only [hl, kruskal_zip (nodup_iterE _) hN]

theorem draws_drawWeights {A : Type} [DecidableEq A] (N : ℕ) (attr : String → V → Option A) (d : Dict String ℚ) :
    ∀ es : List (V × V), Draws es.length (drawWeights (uniRand N) attr d es)
  | [] => draws_pure _ _
  | e :: es => by
    unfold drawWeights
    rw [List.length_cons, Nat.add_comm]
    exact (draws_random N).bind (fun x => (Draws.bind (j := 0) (draws_drawWeights N attr d es) (fun l => draws_pure _ _)))

theorem draws_randomSpanningTree {A : Type} [DecidableEq A] (N : ℕ) (attr : String → V → Option A) (s : Option (Dict String ℚ)) (G : Graph V) :
    Draws G.edges.card (randomSpanningTree (uniRand N) attr s G) := by
  unfold randomSpanningTree
  rw [← length_iterE]
  exact Draws.bind (j := 0) (draws_drawWeights N attr _ _) (fun l => draws_pure _ _)

/-! ### Orders of the edges and permutations -/

section

variable {G : Graph V}

/-- the numbering of the edges in which the numbers are drawn -/
noncomputable def edgeNumber (G : Graph V) : Fin (iterE G.edges).length ≃ {e : V × V // e ∈ G.edges} :=
  ((nodup_iterE G.edges).getEquiv (iterE G.edges)).trans (Equiv.subtypeEquivRight (fun _ => mem_iterE))

theorem edgeNumber_apply (i : Fin (iterE G.edges).length) : (edgeNumber G i).1 = (iterE G.edges)[i] := rfl

/-- an order of the edges as a permutation -/
noncomputable def rankingOf (G : Graph V) : Equiv.Perm (Fin (iterE G.edges).length) ≃ EdgeRanking G :=
  Equiv.equivCongr (edgeNumber G) (finCongr (length_iterE G.edges))

theorem rankingOf_apply (σ : Equiv.Perm (Fin (iterE G.edges).length)) (i : Fin (iterE G.edges).length) :
    (rankingOf G σ (edgeNumber G i) : ℕ) = σ i := by
  simp [rankingOf, Equiv.equivCongr]

theorem placeSum_rankingOf (σ : Equiv.Perm (Fin (iterE G.edges).length)) {E : Finset (V × V)} (hE : E ⊆ G.edges) :
    totalWeight (tapeWeight (iterE G.edges) (fun i => (σ i : ℕ))) E = placeSum (rankingOf G σ) E := by
  classical
  unfold totalWeight placeSum
  push_cast
  have h1 : ∀ e : {e : V × V // e ∈ G.edges}, tapeWeight (iterE G.edges) (fun i => (σ i : ℕ)) e.1 = ((rankingOf G σ e : ℕ) : ℚ) := by
    intro e
    obtain ⟨i, rfl⟩ := (edgeNumber G).surjective e
    rw [rankingOf_apply, edgeNumber_apply]
    exact tapeWeight_get (nodup_iterE _) _ i
  simp only [← h1]
  rw [Finset.sum_filter, Finset.univ_eq_attach, Finset.sum_attach G.edges (fun e => if e ∈ E then tapeWeight (iterE G.edges) (fun i => (σ i : ℕ)) e else 0),
    ← Finset.sum_filter, Finset.filter_mem_eq_inter, Finset.inter_eq_right.2 hE]

theorem treeSets_sub {E : Finset (V × V)} (hE : E ∈ treeSets G) : E ⊆ G.edges := by
  classical
  unfold treeSets at hE
  exact mem_powerset.1 (mem_filter.1 hE).1

theorem tapeTree_iff (hG : G.WF) (hconn : ConnectedOn G G.nodes) (σ : Equiv.Perm (Fin (iterE G.edges).length)) (E : Finset (V × V)) :
    tapeTree (iterE G.edges) (fun i => (σ i : ℕ)) = E ↔ LightestIn G (rankingOf G σ) E := by
  have hes : ∀ e, e ∈ iterE G.edges ↔ e ∈ G.edges := fun e => mem_iterE
  have hmem : tapeTree (iterE G.edges) (fun i => (σ i : ℕ)) ∈ treeSets G := greedy_mem_treeSets hG hconn (byWeight_mem hes)
  constructor
  · rintro rfl
    refine ⟨hmem, fun F hF => ?_⟩
    have := greedy_lightest hG (nodup_iterE _) hes hconn hF (tapeWeight (iterE G.edges) (fun i => (σ i : ℕ)))
    rw [placeSum_rankingOf σ (treeSets_sub hF)] at this
    have h2 := placeSum_rankingOf σ (treeSets_sub hmem)
    unfold tapeTree at h2 ⊢
    rw [h2] at this
    exact_mod_cast this
  · rintro ⟨hE, hle⟩
    refine greedy_unique hG (nodup_iterE _) hes hconn hE _ (fun a ha b hb hab => ?_) ?_
    · rw [← mem_iterE] at ha hb
      obtain ⟨i, hi, rfl⟩ := List.getElem_of_mem ha
      obtain ⟨j, hj, rfl⟩ := List.getElem_of_mem hb
      have e : ∀ (ρ : Fin (iterE G.edges).length → ℕ) (k : ℕ) (hk : k < (iterE G.edges).length), tapeWeight (iterE G.edges) ρ (iterE G.edges)[k] = ρ ⟨k, hk⟩ :=
        fun ρ k hk => tapeWeight_get (nodup_iterE _) ρ ⟨k, hk⟩
      rw [e, e] at hab
      have h3 : (σ ⟨i, hi⟩ : ℕ) = σ ⟨j, hj⟩ := by exact_mod_cast hab
      have := σ.injective (Fin.ext h3)
      have h4 : i = j := congrArg Fin.val this
      subst h4
      rfl
    · rw [placeSum_rankingOf σ (treeSets_sub hE)]
      have h2 := placeSum_rankingOf σ (treeSets_sub hmem)
      unfold tapeTree at h2 hmem
      rw [h2]
      exact_mod_cast hle _ hmem

open Classical in
theorem lightestOrders_eq (hG : G.WF) (hconn : ConnectedOn G G.nodes) (E : Finset (V × V)) :
    lightestOrders G E = #{σ : Equiv.Perm (Fin (iterE G.edges).length) | tapeTree (iterE G.edges) (fun i => (σ i : ℕ)) = E} := by
  unfold lightestOrders
  refine (Finset.card_equiv (rankingOf G) (fun σ => ?_)).symm
  simp only [mem_filter, mem_univ, true_and]
  exact tapeTree_iff hG hconn σ E

/-! ### The law -/

open Classical in
theorem prob_tree {A : Type} [DecidableEq A] (attr : String → V → Option A) (G : Graph V) (E : Finset (V × V)) {N : ℕ} (hN : 0 < N) {L : ℕ}
    (hL : G.edges.card ≤ L) : prob N L (randomSpanningTree (uniRand N) attr none G) (ReturnsTree G E) =
      (#{τ : Fin (iterE G.edges).length → Fin N | tapeTree (iterE G.edges) (fun i => (τ i : ℕ)) = E} : ℚ) / (N : ℚ) ^ (iterE G.edges).length := by
  have hlen := length_iterE G.edges
  unfold prob
  rw [avg_draws_len hN (draws_randomSpanningTree N attr none G) (fun r => if ReturnsTree G E r then 1 else 0) L (iterE G.edges).length hL hlen.ge]
  unfold avg
  congr 1
  rw [Finset.card_filter]
  push_cast
  refine Finset.sum_congr rfl (fun τ _ => ?_)
  obtain ⟨t, w', g1, g2⟩ := randomSpanningTree_tape hN attr G τ
  rw [g1]
  refine if_congr ?_ rfl rfl
  constructor
  · rintro ⟨t', h, h'⟩
    cases h
    rw [g2] at h'
    exact congrArg Graph.edges h'
  · intro h
    exact ⟨t, rfl, by rw [g2, h]⟩

open Classical in
/-- **C97 (the law).**  The probability that `random_spanning_tree` returns a spanning tree is the share of the orders of the edges for which this tree is
the lightest.  The error is at most the probability that two of the `m` numbers drawn are equal (`random.random()` returns the multiples of `2⁻⁵³` with
equal probability, `N = 2⁵³`). -/
theorem C97_law {A : Type} [DecidableEq A] (attr : String → V → Option A) (G : Graph V) (hG : G.WF) (hconn : ConnectedOn G G.nodes) (E : Finset (V × V))
    (N : ℕ) (hN : 0 < N) (L : ℕ) (hL : G.edges.card ≤ L) :
    |prob N L (randomSpanningTree (uniRand N) attr none G) (ReturnsTree G E) - (lightestOrders G E : ℚ) / G.edges.card.factorial|
      ≤ (G.edges.card : ℚ) * (G.edges.card - 1) / (2 * N) := by
  have hlen := length_iterE G.edges
  have h2 := share_close hN (fun τ => tapeTree (iterE G.edges) τ = E) (fun τ τ' h => by rw [tapeTree_congr (nodup_iterE _) h])
  rw [prob_tree attr G E hN hL, lightestOrders_eq hG hconn, ← hlen]
  convert h2

/-- the orders are shared out among the spanning trees -/
theorem C97_total (G : Graph V) (hG : G.WF) (hconn : ConnectedOn G G.nodes) : ∑ E ∈ treeSets G, lightestOrders G E = G.edges.card.factorial := by
  classical
  simp only [lightestOrders_eq hG hconn]
  rw [← Finset.card_eq_sum_card_fiberwise (s := (Finset.univ : Finset (Equiv.Perm (Fin (iterE G.edges).length)))) (t := treeSets G)
    (f := fun σ => tapeTree (iterE G.edges) (fun i => (σ i : ℕ)))
    (fun σ _ => greedy_mem_treeSets hG hconn (byWeight_mem (fun e => mem_iterE))), Finset.card_univ, Fintype.card_perm, Fintype.card_fin, length_iterE]

/-- every spanning tree is the lightest for some order -/
theorem C97_positive (G : Graph V) (hG : G.WF) (E : Finset (V × V)) (hE : E ∈ treeSets G) : 0 < lightestOrders G E := by
  classical
  have hT := hE
  unfold treeSets at hT
  have hconn : ConnectedOn G G.nodes := by
    have h := (mem_filter.1 hT).2.conn
    exact ⟨h.1, fun u hu v hv => Relation.ReflTransGen.mono (fun a b hab =>
      ⟨hab.1.imp (fun x => treeSets_sub hE x) (fun x => treeSets_sub hE x), hab.2⟩) _ _ (h.2 u hu v hv)⟩
  rw [lightestOrders_eq hG hconn]
  set es := iterE G.edges with hes
  set τ : Fin es.length → Fin (2 * es.length) := fun i => if es[i] ∈ E then ⟨i, by omega⟩ else ⟨es.length + i, by omega⟩ with hτ
  have hinj : Function.Injective τ := by
    intro i j hij
    rw [hτ] at hij
    simp only at hij
    have hi := i.2
    have hj := j.2
    split_ifs at hij <;> rw [Fin.mk.injEq] at hij <;> apply Fin.ext <;> omega
  have hstrict := sort_eq_iff_strict.1 ⟨hinj, rfl⟩
  refine Finset.card_pos.2 ⟨(Tuple.sort τ)⁻¹, ?_⟩
  rw [mem_filter]
  refine ⟨mem_univ _, ?_⟩
  have hn : es.Nodup := nodup_iterE _
  have e1 : tapeTree es (fun i => ((Tuple.sort τ)⁻¹ i : ℕ)) = tapeTree es (fun i => (τ i : ℕ)) := by
    refine (tapeTree_congr hn (fun i j => ?_)).symm
    have := hstrict.le_iff_le (a := (Tuple.sort τ).symm i) (b := (Tuple.sort τ).symm j)
    rw [Function.comp_apply, Function.comp_apply, (Tuple.sort τ).apply_symm_apply, (Tuple.sort τ).apply_symm_apply] at this
    exact this
  rw [e1]
  unfold tapeTree
  rw [← kruskal_map]
  have hw : ∀ p ∈ es.map (fun e => (tapeWeight es (fun i => (τ i : ℕ)) e, e)), ∃ i : Fin es.length, p = (((τ i : ℕ) : ℚ), es[i]) := by
    intro p hp
    obtain ⟨e, he, rfl⟩ := List.mem_map.1 hp
    obtain ⟨i, hi, rfl⟩ := List.getElem_of_mem he
    exact ⟨⟨i, hi⟩, by rw [← tapeWeight_get hn (fun i => (τ i : ℕ)) ⟨i, hi⟩]; rfl⟩
  refine kruskal_of_light hG hE (fun e => ?_) es.length ?_ ?_
  · rw [List.map_map]
    simp [Function.comp_def, hes]
  · intro p hp hpE
    obtain ⟨i, rfl⟩ := hw p hp
    simp only at hpE ⊢
    rw [hτ]
    simp only [hpE, if_true]
    exact_mod_cast i.2
  · intro p hp hpE
    obtain ⟨i, rfl⟩ := hw p hp
    simp only at hpE ⊢
    rw [hτ]
    simp only [hpE, if_false]
    push_cast
    linarith [(Nat.cast_nonneg i.val : (0 : ℚ) ≤ (i.val : ℚ))]

end

/-! ### The distribution is not uniform -/

/-- a square with one diagonal -/
def diamond : Graph (Fin 4) := ⟨{0, 1, 2, 3}, {(0, 1), (0, 2), (0, 3), (1, 2), (2, 3)}⟩

/-- a tree with the diagonal -/
def diamondStar : Finset (Fin 4 × Fin 4) := {(0, 1), (0, 2), (0, 3)}

/-- a tree without the diagonal -/
def diamondPath : Finset (Fin 4 × Fin 4) := {(0, 1), (1, 2), (2, 3)}

theorem diamond_wf : diamond.WF := ⟨by decide, by decide, by decide⟩

theorem diamond_conn : ConnectedOn diamond diamond.nodes := by
  refine ⟨⟨0, by decide⟩, ?_⟩
  have h0 : ∀ v ∈ diamond.nodes, ReachIn diamond diamond.nodes 0 v := by
    intro v hv
    by_cases h : v = 0
    · subst h; exact Relation.ReflTransGen.refl
    · exact Relation.ReflTransGen.single ⟨by revert h; revert v; decide, by decide, hv⟩
  intro u hu v hv
  exact (h0 u hu).symm.trans (h0 v hv)

set_option maxRecDepth 100000 in
theorem diamond_orders : #{σ : Equiv.Perm (Fin (iterE diamond.edges).length) | tapeTree (iterE diamond.edges) (fun i => (σ i : ℕ)) = diamondStar} = 16 ∧
    #{σ : Equiv.Perm (Fin (iterE diamond.edges).length) | tapeTree (iterE diamond.edges) (fun i => (σ i : ℕ)) = diamondPath} = 14 := by
  decide +kernel

theorem diamond_lightest : lightestOrders diamond diamondStar = 16 ∧ lightestOrders diamond diamondPath = 14 := by
  rw [lightestOrders_eq diamond_wf diamond_conn, lightestOrders_eq diamond_wf diamond_conn]
  have := diamond_orders
  constructor
  · convert this.1
  · convert this.2

open Classical in
/-- **C97 (not uniform).**  In a square with one diagonal the tree of the three edges at one end of the diagonal is drawn more often than the path around
the square, whatever the (large) number of values of `random.random()` is: about `2/15` against `7/60`. -/
theorem C97_not_uniform {A : Type} [DecidableEq A] (attr : String → Fin 4 → Option A) (N : ℕ) (hN : 1200 < N) (L : ℕ) (hL : 5 ≤ L) :
    diamondStar ∈ treeSets diamond ∧ diamondPath ∈ treeSets diamond ∧
    prob N L (randomSpanningTree (uniRand N) attr none diamond) (ReturnsTree diamond diamondPath) <
      prob N L (randomSpanningTree (uniRand N) attr none diamond) (ReturnsTree diamond diamondStar) := by
  have hpos : ∀ E, 0 < lightestOrders diamond E → E ∈ treeSets diamond := by
    intro E h
    unfold lightestOrders at h
    obtain ⟨w, hw⟩ := Finset.card_pos.1 h
    exact (mem_filter.1 hw).2.1
  obtain ⟨k1, k2⟩ := diamond_lightest
  refine ⟨hpos _ (by omega), hpos _ (by omega), ?_⟩
  have h1 := C97_law attr diamond diamond_wf diamond_conn diamondStar N (by omega) L hL
  have h2 := C97_law attr diamond diamond_wf diamond_conn diamondPath N (by omega) L hL
  rw [k1] at h1
  rw [k2] at h2
  have hc : diamond.edges.card = 5 := rfl
  rw [hc] at h1 h2
  have hf : Nat.factorial 5 = 120 := rfl
  rw [hf] at h1 h2
  have hN' : (1200 : ℚ) < N := by exact_mod_cast hN
  have hb : ((5 : ℕ) : ℚ) * ((5 : ℕ) - 1) / (2 * N) < 1 / 120 := by
    rw [div_lt_iff₀ (by linarith)]
    push_cast
    linarith
  rw [abs_le] at h1 h2
  push_cast at h1 h2 hb
  have a1 := h1.1
  have a2 := h2.2
  norm_num at a1 a2 hb
  linarith

/-! ### Concrete cases -/

/-- the hypotheses of `C97_lightest` and `C97_law` are met by the diamond; with these weights (a surcharge of one half on the edges between `{0, 1}` and
`{2, 3}`) the path over the diagonal is returned -/
example : diamond.WF ∧ ConnectedOn diamond diamond.nodes ∧ (uniRand 10).Valid ∧
    ((randomSpanningTree (uniRand 10) (fun _ v => some (v / 2)) (some (Dict.empty.set "county" (1/2))) diamond [1, 2, 3, 4, 5]).1.toOption.map
      (fun t => iterE t.graph.edges)) = some [(0, 1), (0, 2), (2, 3)] :=
  ⟨diamond_wf, diamond_conn, uniRand_valid (by omega), by decide +kernel⟩

example : diamondStar ∈ treeSets diamond ∧ 0 < lightestOrders diamond diamondStar ∧ lightestOrders diamond diamondStar < (Nat.factorial 5) :=
  ⟨(C97_not_uniform (fun _ _ => (none : Option ℕ)) 1201 (by omega) 5 le_rfl).1, by rw [diamond_lightest.1]; decide, by rw [diamond_lightest.1]; decide⟩

end GC

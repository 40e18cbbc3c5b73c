import Verif.Lemmas.WilsonLimit
import Verif.Lemmas.Kirchhoff
import Verif.Props.TreeCount

/-!
# C73: `uniform_spanning_tree` draws every spanning tree with the same probability
-/

set_option linter.unusedSectionVars false
set_option autoImplicit false

namespace GC

open PowerSeries

variable {V : Type} [LinearOrder V] {S : Type}

/-- the program returned a tree with exactly the edges `E` -/
def Builds (G : Graph V) (E : Finset (V × V)) (r : Py (WTree V)) : Prop :=
  ∃ t, r = .ok t ∧ ∀ u v, t.graph.Adj u v ↔ Graph.Adj ⟨G.nodes, E⟩ u v

theorem strictRand_sound (N : ℕ) : (strictRand N).Sound := by
  intro α l w w' x h
  cases l with
  | nil => cases h
  | cons y l =>
    cases w with
    | nil => cases h
    | cons i t =>
      have h : ((.ok ((y :: l)[i % (l.length + 1)]'(Nat.mod_lt _ (Nat.succ_pos _))), t) : Py α × Tape) = (.ok x, w') := h
      have := (Prod.mk.inj h).1
      cases this
      exact List.getElem_mem _

/-- what `uniform_spanning_tree` does after it has chosen the root -/
def wilsonFrom (R : Rand S) (fuel : ℕ) (G : Graph V) (root : V) : M S (WTree V) := do
  let r ← wilsonLoop R G fuel (iter G.nodes) {root} (Dict.empty.set root none)
  let T ← M.lift (wilsonGraph r.2 (iter r.1) ⟨∅, ∅⟩)
  pure ⟨T, fun _ _ => none⟩

theorem wilsonInv_start {G : Graph V} {root : V} (hroot : root ∈ G.nodes) :
    WilsonInv G root {root} ((Dict.empty : Dict V (Option V)).set root none) (fun _ => 0) :=
  ⟨Dict.wf_empty.set _ _, by simp, by simpa using hroot, Dict.get?_set_self _ _ _, by
    intro x hx hne; exact absurd (by simpa using hx) hne⟩

/-- the graph that is built from pointers -/
theorem wilsonGraph_adj {G : Graph V} {root : V} {next : Dict V (Option V)} {par : V → V} {rank : V → ℕ} (hroot : next.get? root = some none)
    (hptr : ∀ x ∈ G.nodes, x ≠ root → next.get? x = some (some (par x)) ∧ rank (par x) < rank x) :
    ∃ T, wilsonGraph next (iter G.nodes) ⟨∅, ∅⟩ = .ok T ∧
      ∀ u v, T.Adj u v ↔ (u ∈ G.nodes ∧ u ≠ root ∧ v = par u) ∨ (v ∈ G.nodes ∧ v ≠ root ∧ u = par v) := by
  obtain ⟨T, t1, -, t3⟩ := wilsonGraph_spec (N := G.nodes) (rank := rank) (par := par) hroot hptr (iter G.nodes) ∅ ⟨∅, ∅⟩ (nodup_iter _)
    (fun x hx => mem_iter.1 hx) (by simp) (by simp) (by simp) (by simp)
  refine ⟨T, t1, fun u v => ?_⟩
  have hm : ∀ a b, (a, b) ∈ T.edges ↔ a ∈ G.nodes ∧ a ≠ root ∧ b = par a := by
    intro a b
    rw [t3]
    simp only [Finset.empty_union, toFinset_iter, Finset.mem_image, Finset.mem_erase, Prod.mk.injEq]
    constructor
    · rintro ⟨x, ⟨h1, h2⟩, rfl, rfl⟩
      exact ⟨h2, h1, rfl⟩
    · rintro ⟨h1, h2, rfl⟩
      exact ⟨a, ⟨h2, h1⟩, rfl, rfl⟩
  unfold Graph.Adj
  rw [hm, hm]

theorem wilsonFrom_builds {R : Rand S} (hR : R.Sound) {G : Graph V} {E : Finset (V × V)} {root : V} {f : V → V} {rank : V → ℕ} (hroot : root ∈ G.nodes)
    (hE : Rooted (⟨G.nodes, E⟩ : Graph V) root f rank) (fuel : ℕ) (s : S) :
    Builds G E (wilsonFrom R fuel G root s).1 ↔ EndsWith G root f (wilsonLoop R G fuel (iter G.nodes) {root} (Dict.empty.set root none) s).1 := by
  unfold wilsonFrom
  rcases hl : wilsonLoop R G fuel (iter G.nodes) {root} (Dict.empty.set root none) s with ⟨e | ⟨T, next⟩, s'⟩
  · have : ((wilsonLoop R G fuel (iter G.nodes) {root} (Dict.empty.set root none) >>= fun r =>
        M.lift (wilsonGraph r.2 (iter r.1) ⟨∅, ∅⟩) >>= fun T => (pure ⟨T, fun _ _ => none⟩ : M S (WTree V))) s).1 = .error e := by
      show (M.bind _ _ s).1 = _
      unfold M.bind
      rw [hl]
    rw [this]
    constructor
    · rintro ⟨t, h, -⟩; cases h
    · rintro ⟨t, n, h, -⟩; cases h
  · obtain ⟨rank', hinv, -, hall⟩ := wilsonLoop_spec hR _ _ _ _ _ _ _ _ (fun v hv => mem_iter.1 hv) (wilsonInv_start hroot) hl
    have hN : T = G.nodes := Finset.Subset.antisymm hinv.sub (fun v hv => hall v (mem_iter.2 hv))
    subst hN
    have hne : Nonempty V := ⟨root⟩
    choose! par hpar using hinv.ptr
    obtain ⟨T, ht, hadj⟩ := wilsonGraph_adj (G := G) (rank := rank') (par := par) hinv.root_next (fun x hx h => ⟨(hpar x hx h).2.1, (hpar x hx h).2.2.2⟩)
    have : ((wilsonLoop R G fuel (iter G.nodes) {root} (Dict.empty.set root none) >>= fun r =>
        M.lift (wilsonGraph r.2 (iter r.1) ⟨∅, ∅⟩) >>= fun T => (pure ⟨T, fun _ _ => none⟩ : M S (WTree V))) s).1 = .ok ⟨T, fun _ _ => none⟩ := by
      show (M.bind _ _ s).1 = _
      unfold M.bind
      rw [hl]
      show (M.bind (M.lift (wilsonGraph next (iter G.nodes) ⟨∅, ∅⟩)) _ s').1 = _
      rw [ht]
      rfl
    rw [this]
    have hEadj : ∀ u v, Graph.Adj (⟨G.nodes, E⟩ : Graph V) u v ↔ (u ∈ G.nodes ∧ u ≠ root ∧ v = f u) ∨ (v ∈ G.nodes ∧ v ≠ root ∧ u = f v) := by
      intro u v
      constructor
      · intro h
        have hm := hE.wf.mem_of_adj h
        rcases hE.edge u v h with h | h
        · exact Or.inl ⟨hm.1, h⟩
        · exact Or.inr ⟨hm.2, h⟩
      · rintro (⟨h1, h2, rfl⟩ | ⟨h1, h2, rfl⟩)
        · exact hE.adj u h1 h2
        · exact (hE.adj v h1 h2).symm
    have key : (∀ u v, T.Adj u v ↔ Graph.Adj (⟨G.nodes, E⟩ : Graph V) u v) ↔ ∀ v ∈ G.nodes, v ≠ root → par v = f v := by
      constructor
      · intro h
        have go : ∀ n v, v ∈ G.nodes → v ≠ root → rank v = n → par v = f v := by
          intro n
          induction n using Nat.strong_induction_on with
          | _ n ih =>
            intro v hv hvr hn
            have hT : T.Adj v (f v) := (h v (f v)).2 (hE.adj v hv hvr)
            rcases (hadj v (f v)).1 hT with ⟨-, -, h1⟩ | ⟨h1, h2, h3⟩
            · exact h1.symm
            · have hlt := hE.rank_lt v hv hvr
              have := ih (rank (f v)) (by omega) (f v) h1 h2 rfl
              rw [← h3] at this
              have hlt2 := hE.rank_lt (f v) h1 h2
              rw [← this] at hlt2
              omega
        exact fun v hv hvr => go _ v hv hvr rfl
      · intro h u v
        rw [hadj, hEadj]
        have : ∀ a b, (a ∈ G.nodes ∧ a ≠ root ∧ b = par a) ↔ (a ∈ G.nodes ∧ a ≠ root ∧ b = f a) := by
          intro a b
          constructor
          · rintro ⟨h1, h2, h3⟩
            exact ⟨h1, h2, by rw [h3, h a h1 h2]⟩
          · rintro ⟨h1, h2, h3⟩
            exact ⟨h1, h2, by rw [h3, h a h1 h2]⟩
        rw [this, this]
    constructor
    · rintro ⟨t, ht, hadj'⟩
      cases ht
      refine ⟨_, _, rfl, fun v hv hvr => ?_⟩
      rw [(hpar v hv hvr).2.1, key.1 hadj' v hv hvr]
    · rintro ⟨T', next', h, hp⟩
      cases h
      refine ⟨_, rfl, key.2 (fun v hv hvr => ?_)⟩
      have h1 := hp v hv hvr
      rw [(hpar v hv hvr).2.1] at h1
      simpa using h1

/-- the numbers on the tape are fair for every choice among at most as many things as the graph has nodes -/
def FairFor (G : Graph V) (N : ℕ) : Prop := 0 < N ∧ ∀ k, 0 < k → k ≤ G.nodes.card → k ∣ N

theorem FairFor.nbr {G : Graph V} {N : ℕ} (h : FairFor G N) {v : V} (hne : (G.neighbors v).Nonempty) : (G.neighbors v).card ∣ N :=
  h.2 _ (Finset.card_pos.2 hne) (Finset.card_le_card (neighbors_sub G v))

open Classical in
/-- the probability that a tree is built from a given root: the same for all spanning trees -/
theorem prob_wilsonFrom {G : Graph V} {N : ℕ} (hN : FairFor G N) {E : Finset (V × V)} (hE : E ∈ treeSets G) {root : V} (hroot : root ∈ G.nodes) (L fuel : ℕ)
    (hL : L < fuel) :
    prob N L (wilsonFrom (strictRand N) fuel G root) (Builds G E) = coeff L (treeSeries G.nodes G.neighbors (G.nodes.erase root)) := by
  unfold treeSets at hE
  obtain ⟨hEs, hT⟩ := Finset.mem_filter.1 hE
  have hEs := Finset.mem_powerset.1 hEs
  obtain ⟨f, rank, hR, -⟩ := bfs_rooted hT (root := root) hroot
  have hsub : ∀ u v, Graph.Adj (⟨G.nodes, E⟩ : Graph V) u v → G.Adj u v := fun u v h => h.imp (fun h => hEs h) (fun h => hEs h)
  have hf : Pointing G root f rank := ⟨fun v hv hvr => Finset.mem_filter.2 ⟨hR.par_mem v hv hvr, hsub _ _ (hR.adj v hv hvr)⟩, hR.rank_lt⟩
  rw [prob_congr N L (fun t => wilsonFrom_builds (strictRand_sound N) hroot hR fuel t)]
  have hdiv : ∀ v ∈ G.nodes, v ≠ root → (G.neighbors v).card ∣ N := fun v hv hvr => hN.nbr ⟨_, hf.nbr v hv hvr⟩
  rw [loop_series hN.1 hdiv hf fuel (iter G.nodes) (fun v hv => mem_iter.1 hv) {root} _ L ⟨by simp, by simpa using hroot, ?_⟩
    (fun v hv _ => mem_iter.2 hv) hL, Finset.sdiff_singleton_eq_erase]
  intro v hv hne
  exact absurd (by simpa using hv) hne

theorem uniformSpanningTree_eq (R : Rand S) (fuel : ℕ) (G : Graph V) :
    uniformSpanningTree R fuel G = R.choice (iter G.nodes) >>= fun root => wilsonFrom R fuel G root := rfl

theorem not_builds_error (G : Graph V) (E : Finset (V × V)) (e : PyErr) : ¬ Builds G E (.error e) := by
  rintro ⟨t, h, -⟩
  cases h

open Classical in
/-- **C73** (every horizon) For every number `L` of random choices, all spanning trees have the same probability to be returned by
`uniform_spanning_tree` after at most `L` random choices.  The model's bound `fuel` on the rounds of the loops is larger than `L`, so it plays no role. -/
theorem C73_equally_likely (G : Graph V) (N : ℕ) (hN : FairFor G N) (E E' : Finset (V × V)) (hE : E ∈ treeSets G) (hE' : E' ∈ treeSets G) (L fuel : ℕ)
    (hL : L ≤ fuel) :
    prob N L (uniformSpanningTree (strictRand N) fuel G) (Builds G E) = prob N L (uniformSpanningTree (strictRand N) fuel G) (Builds G E') := by
  have hne : G.nodes.Nonempty := by
    unfold treeSets at hE
    exact (Finset.mem_filter.1 hE).2.conn.1
  have hl : iter G.nodes ≠ [] := by
    rw [Ne, iter_eq_nil]
    exact hne.ne_empty
  rw [uniformSpanningTree_eq]
  cases L with
  | zero => rw [prob_choice_zero _ hl _ (not_builds_error G E), prob_choice_zero _ hl _ (not_builds_error G E')]
  | succ L =>
    have hd : (iter G.nodes).length ∣ N := by
      rw [length_iter]
      exact hN.2 _ (Finset.card_pos.2 hne) (le_refl _)
    rw [prob_choice hN.1 L _ hl hd, prob_choice hN.1 L _ hl hd, sum_map_iter, sum_map_iter]
    congr 1
    refine Finset.sum_congr rfl (fun root hroot => ?_)
    rw [prob_wilsonFrom hN hE hroot L fuel (by omega), prob_wilsonFrom hN hE' hroot L fuel (by omega)]

theorem connected_of_tree {G : Graph V} {E : Finset (V × V)} (hE : E ∈ treeSets G) : ConnectedOn G G.nodes := by
  classical
  unfold treeSets at hE
  obtain ⟨hEs, hT⟩ := Finset.mem_filter.1 hE
  have hEs := Finset.mem_powerset.1 hEs
  refine ⟨hT.conn.1, fun u hu v hv => ?_⟩
  exact Relation.ReflTransGen.mono (fun a b h => ⟨h.1.imp (fun h => hEs h) (fun h => hEs h), h.2⟩) u v (hT.conn.2 u hu v hv)

/-- whatever is returned is exactly one of the spanning trees -/
theorem built_tree {R : Rand S} (hR : R.Sound) {G : Graph V} (hG : G.WF) {fuel : ℕ} {t t' : S} {T : WTree V}
    (hr : uniformSpanningTree R fuel G t = (.ok T, t')) :
    ∃ E ∈ treeSets G, (∀ u v, Graph.Adj ⟨G.nodes, E⟩ u v ↔ T.graph.Adj u v) ∧ ∀ E' ∈ treeSets G, Builds G E' (.ok T) → E' = E := by
  classical
  obtain ⟨h1, h2, h3⟩ := C41_uniform_spanning_tree hR fuel G t t' T hr
  obtain ⟨E, hE, hadj⟩ : ∃ E ∈ treeSets G, ∀ u v, Graph.Adj ⟨G.nodes, E⟩ u v ↔ T.graph.Adj u v := by
    by_cases hc : 2 ≤ G.nodes.card
    · exact treeSets_complete hG (h1 hc)
    · obtain ⟨x, hx⟩ := h3
      have hn : G.nodes = {x} := by
        refine Finset.eq_singleton_iff_unique_mem.2 ⟨hx, fun y hy => ?_⟩
        by_contra hne
        exact hc (Finset.one_lt_card.2 ⟨y, hy, x, hx, hne⟩)
      refine ⟨∅, ?_, ?_⟩
      · unfold treeSets
        rw [Finset.mem_filter]
        refine ⟨Finset.empty_mem_powerset _, ⟨?_, ?_, ?_⟩, ?_, ?_⟩
        · exact fun e he => absurd he (by simp)
        · exact fun e he => absurd he (by simp)
        · exact fun e he => absurd he (by simp)
        · show ConnectedOn _ G.nodes
          rw [hn]
          refine ⟨⟨x, by simp⟩, fun u hu v hv => ?_⟩
          rw [Finset.mem_singleton] at hu hv
          subst hu
          subst hv
          exact Relation.ReflTransGen.refl
        · show (∅ : Finset (V × V)).card + 1 = G.nodes.card
          rw [hn]
          rfl
      · intro u v
        rw [h2 (by omega)]
        unfold Graph.Adj
        simp
  refine ⟨E, hE, hadj, fun E' hE' => ?_⟩
  rintro ⟨T', hT', hadj'⟩
  cases hT'
  have hs : ∀ {E}, E ∈ treeSets G → E ⊆ G.edges := by
    intro E hE
    unfold treeSets at hE
    exact Finset.mem_powerset.1 (Finset.mem_filter.1 hE).1
  exact (edges_ext hG (hs hE') (hs hE) (fun u v => (hadj' u v).symm.trans (hadj u v).symm))

open Classical in
/-- the program returns if it returns one of the spanning trees -/
theorem prob_isOk {G : Graph V} (hG : G.WF) {N : ℕ} (L fuel : ℕ) :
    prob N L (uniformSpanningTree (strictRand N) fuel G) IsOk = ∑ E ∈ treeSets G, prob N L (uniformSpanningTree (strictRand N) fuel G) (Builds G E) := by
  have hpoint : ∀ t : Tape, (if IsOk (uniformSpanningTree (strictRand N) fuel G t).1 then (1 : ℚ) else 0) =
      ∑ E ∈ treeSets G, if Builds G E (uniformSpanningTree (strictRand N) fuel G t).1 then (1 : ℚ) else 0 := by
    intro t
    rcases hr : uniformSpanningTree (strictRand N) fuel G t with ⟨e | T, t'⟩
    · rw [if_neg (by rintro ⟨a, ha⟩; cases ha)]
      exact (Finset.sum_eq_zero (fun E _ => if_neg (not_builds_error G E e))).symm
    · rw [if_pos ⟨T, rfl⟩]
      obtain ⟨E, hE, hadj, huniq⟩ := built_tree (strictRand_sound N) hG hr
      rw [Finset.sum_eq_single_of_mem E hE, if_pos]
      · exact ⟨T, rfl, fun u v => (hadj u v).symm⟩
      · intro E' hE' hne
        exact if_neg (fun h => hne (huniq E' hE' h))
  unfold prob avg
  rw [← Finset.sum_div, Finset.sum_comm]
  congr 1
  exact Finset.sum_congr rfl (fun t _ => hpoint _)

open Classical in
/-- **C73** (limit) The probability that `uniform_spanning_tree` returns the spanning tree with the edges `E` is one over the number of spanning trees of the
graph: within `L` random choices it is at most that, and it comes as close as wanted for large `L`. -/
theorem C73_uniform (G : Graph V) (hG : G.WF) (N : ℕ) (hN : FairFor G N) (E : Finset (V × V)) (hE : E ∈ treeSets G) :
    (∀ L fuel, L ≤ fuel → prob N L (uniformSpanningTree (strictRand N) fuel G) (Builds G E) ≤ 1 / (treeSets G).card) ∧
    ∀ ε : ℚ, 0 < ε → ∃ L0, ∀ L fuel, L0 ≤ L → L ≤ fuel →
      1 / (treeSets G).card - ε ≤ prob N L (uniformSpanningTree (strictRand N) fuel G) (Builds G E) := by
  have hτ : (0 : ℚ) < (treeSets G).card := by exact_mod_cast Finset.card_pos.2 ⟨E, hE⟩
  have hsum : ∀ L fuel, L ≤ fuel → prob N L (uniformSpanningTree (strictRand N) fuel G) IsOk =
      (treeSets G).card * prob N L (uniformSpanningTree (strictRand N) fuel G) (Builds G E) := by
    intro L fuel hL
    rw [prob_isOk hG, Finset.sum_congr rfl (fun E' hE' => C73_equally_likely G N hN E' E hE' hE L fuel hL), Finset.sum_const, nsmul_eq_mul]
  refine ⟨fun L fuel hL => ?_, fun ε hε => ?_⟩
  · rw [le_div_iff₀ hτ, mul_comm, ← hsum L fuel hL]
    exact prob_le_one hN.1 _ _ _
  · have hconn := connected_of_tree hE
    have hl : iter G.nodes ≠ [] := by
      rw [Ne, iter_eq_nil]
      exact hconn.1.ne_empty
    have hd : (iter G.nodes).length ∣ N := by
      rw [length_iter]
      exact hN.2 _ (Finset.card_pos.2 hconn.1) (le_refl _)
    set ε' := min ε 1 with hε'
    have hε0 : 0 < ε' := lt_min hε one_pos
    have hdiv : ∀ root ∈ G.nodes, ∀ v ∈ G.nodes, v ≠ root → (G.neighbors v).card ∣ N := by
      intro root hr v hv hne
      have := neighbors_ne_nil hconn hv hr hne
      rw [Ne, iter_eq_nil] at this
      exact hN.nbr (Finset.nonempty_of_ne_empty this)
    have hex : ∀ root, ∃ L0, root ∈ G.nodes → ∀ L fuel, L0 ≤ L → L < fuel → 1 - ε' ≤ prob N L (wilsonFrom (strictRand N) fuel G root) IsOk := by
      intro root
      by_cases hr : root ∈ G.nodes
      · obtain ⟨L0, h0⟩ := prob_loop_ge hconn hN.1 hr (strictRand_sound N) (hdiv root hr) (iter G.nodes) (fun v hv => mem_iter.1 hv) ε' hε0 (min_le_right _ _)
        refine ⟨L0, fun _ L fuel hL hf => ?_⟩
        have := prob_bind_ge hN.1 (strict_wilsonLoop N G fuel (iter G.nodes) {root} (Dict.empty.set root none)) (E := IsOk) (c := 1)
          (k := fun r => M.lift (wilsonGraph r.2 (iter r.1) ⟨∅, ∅⟩) >>= fun T => (pure ⟨T, fun _ _ => none⟩ : M Tape (WTree V))) L 0 (by
            rintro t t' ⟨T, next⟩ h L _ _
            obtain ⟨rank', hinv, -, hall⟩ := wilsonLoop_spec (strictRand_sound N) _ _ _ _ _ _ _ _ (fun v hv => mem_iter.1 hv) (wilsonInv_start hr) h
            have hN' : T = G.nodes := Finset.Subset.antisymm hinv.sub (fun v hv => hall v (mem_iter.2 hv))
            subst hN'
            have hne : Nonempty V := ⟨root⟩
            choose! par hpar using hinv.ptr
            obtain ⟨T, ht, -⟩ := wilsonGraph_adj (G := G) (rank := rank') (par := par) hinv.root_next
              (fun x hx h => ⟨(hpar x hx h).2.1, (hpar x hx h).2.2.2⟩)
            rw [prob_eq_one hN.1]
            intro t
            refine ⟨⟨T, fun _ _ => none⟩, ?_⟩
            show (M.bind (M.lift (wilsonGraph next (iter G.nodes) ⟨∅, ∅⟩)) _ t).1 = _
            rw [ht]
            rfl)
        rw [mul_one] at this
        exact (h0 L fuel _ _ _ hL hf (wilsonInv_start hr)).trans this
      · exact ⟨0, fun h => absurd h hr⟩
    choose d hdd using hex
    refine ⟨G.nodes.sup d + 1, fun L fuel hL hf => ?_⟩
    obtain ⟨L, rfl⟩ : ∃ L', L = L' + 1 := ⟨L - 1, by omega⟩
    have hok : 1 - ε' ≤ prob N (L + 1) (uniformSpanningTree (strictRand N) fuel G) IsOk := by
      rw [uniformSpanningTree_eq, prob_choice hN.1 L _ hl hd, sum_map_iter, length_iter]
      have hc : (0 : ℚ) < G.nodes.card := by exact_mod_cast Finset.card_pos.2 hconn.1
      rw [le_div_iff₀ hc]
      have : ∑ _root ∈ G.nodes, (1 - ε') ≤ ∑ root ∈ G.nodes, prob N L (wilsonFrom (strictRand N) fuel G root) IsOk := by
        refine Finset.sum_le_sum (fun root hr => hdd root hr L fuel ?_ (by omega))
        have := Finset.le_sup (f := d) hr
        omega
      rw [Finset.sum_const, nsmul_eq_mul] at this
      linarith
    rw [hsum (L + 1) fuel hf] at hok
    have h1 : 1 / (treeSets G).card - ε' / (treeSets G).card ≤ prob N (L + 1) (uniformSpanningTree (strictRand N) fuel G) (Builds G E) := by
      rw [← sub_div, div_le_iff₀ hτ]
      linarith
    have h2 : ε' / (treeSets G).card ≤ ε := by
      rw [div_le_iff₀ hτ]
      have : (1 : ℚ) ≤ (treeSets G).card := by exact_mod_cast Finset.card_pos.2 ⟨E, hE⟩
      have h3 : ε' ≤ ε := min_le_left _ _
      nlinarith
    linarith

/-- a square with a diagonal has eight spanning trees, and each is drawn with probability 1/8 -/
example : (treeSets (houseGraph.subgraph {0, 1, 2, 3})).Nonempty ∧ ∀ E ∈ treeSets (houseGraph.subgraph {0, 1, 2, 3}), ∀ ε : ℚ, 0 < ε →
    ∃ L0, ∀ L fuel, L0 ≤ L → L ≤ fuel →
      open Classical in 1 / 8 - ε ≤ prob 24 L (uniformSpanningTree (strictRand 24) fuel (houseGraph.subgraph {0, 1, 2, 3})) (Builds (houseGraph.subgraph {0, 1, 2, 3}) E) := by
  have h8 : (treeSets (houseGraph.subgraph {0, 1, 2, 3})).card = 8 := house_trees
  refine ⟨Finset.card_pos.1 (by rw [h8]; norm_num), fun E hE ε hε => ?_⟩
  have hfair : FairFor (houseGraph.subgraph {0, 1, 2, 3}) 24 := by
    refine ⟨by norm_num, fun k hk hk' => ?_⟩
    have : (houseGraph.subgraph {0, 1, 2, 3}).nodes.card = 4 := by decide
    rw [this] at hk'
    interval_cases k <;> decide
  have := (C73_uniform _ (houseGraph_wf.subgraph _) 24 hfair E hE).2 ε hε
  rw [h8] at this
  exact_mod_cast this

end GC

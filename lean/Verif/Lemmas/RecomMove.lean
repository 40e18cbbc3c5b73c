import Verif.Lemmas.RecomKernel
import Verif.Lemmas.RetryRun
import Verif.Props.RecLaw

/-!
# `recom` as a proposal of a chain

What `recom` can return, how many random numbers it draws, and the probability of every result, from any plan that a run can be in.
-/

set_option linter.unusedSectionVars false
set_option autoImplicit false

namespace GC

variable {V P : Type} [LinearOrder V] [LinearOrder P]

/-- `recom` (proposals/tree_proposals.py:36-146) on values: the plan with the flips of `spanMove` -/
noncomputable def recomProposal (N r m : ℕ) (span : Graph V → M Tape (WTree V)) (fuel : ℕ) (G : Graph V) (pop : V → ℚ) (target eps : ℚ) (x : PlanState V P) :
    M Tape (PlanState V P) := do
  let flips ← spanMove N r m span fuel G x.plan pop target eps
  M.lift (x.flip flips)

/-- `MarkovChain(recom, constraints, always_accept, initial_state, total_steps)` (chain.py:51-101) with the initial state and `n` moves -/
noncomputable def recomChain (N r m : ℕ) (span : Graph V → M Tape (WTree V)) (fuel : ℕ) (G : Graph V) (pop : V → ℚ) (target eps : ℚ) (a : Assignment V P) (n : ℕ) :
    ChainCfg Tape (PlanState V P) :=
  flipChain (recomProposal N r m span fuel G pop target eps) alwaysAccept ⟨a, none⟩ ((n + 1 : ℕ) : ℤ)

/-- random numbers for one proposal -/
def recomDraws (d0 m : ℕ) (G : Graph V) : ℕ := d0 + m * (d0 + (1 + 2 * G.nodes.card)) + 3

/-- the random numbers divide evenly -/
def EvenTape (G : Graph V) (N : ℕ) : Prop := 0 < N ∧ (2 ^ G.edges.card).factorial ∣ N

section move
variable {N r m d0 fuel k : ℕ} {G : Graph V} {pop : V → ℚ} {target eps : ℚ} {span : Graph V → M Tape (WTree V)} {μ : Finset V → Finset (V × V) → ℚ}
  {a : Assignment V P} {x : PlanState V P} {X : Finset (Finset V)}

theorem setup_of_plan (hG : G.WF) (hN : EvenTape G N) (hr : 0 < r) (ha : a.Coherent) (hp : IsPlan G pop target eps k a.plan) : RecomSetup N r G a :=
  ⟨hG, hN.1, hN.2, hr, ha, (labelled ha hp).1, (labelled ha hp).2⟩

/-- what the bipartition returns -/
theorem bip_result (hG : G.WF) (hN : 0 < N) {U : Finset V} (hU : U ⊆ G.nodes) (h3 : 3 ≤ U.card) {ν : Finset (V × V) → ℚ}
    (hspan : SpanLaw N d0 (span (G.subgraph U)) U (treeSets (G.subgraph U)) ν) (w : Tape) :
    (bipartitionTree ⟨span, memoBalance (uniRand N) false, r, some m⟩ (fun _ => (uniRand N).choice) false (m + 1) none
        (G.subgraph U) pop target eps w).1 = .error .runtimeError ∨
    ∃ S, (bipartitionTree ⟨span, memoBalance (uniRand N) false, r, some m⟩ (fun _ => (uniRand N).choice) false (m + 1) none
        (G.subgraph U) pop target eps w).1 = .ok S ∧ S ⊆ U ∧ (ConnectedOn G S ∧ Near target eps (popOf pop S)) ∧
      (ConnectedOn G (U \ S) ∧ Near target eps (popOf pop (U \ S))) := by
  have hn := subgraph_nodes hU
  have hloop : ∀ (f : ℕ) (t : WTree V) (k x : ℕ) (w : Tape), x ≤ m → m < f + x → t.graph.nodes = U → t.graph.edges ∈ treeSets (G.subgraph U) →
      (bipLoop ⟨span, memoBalance (uniRand N) false, r, some m⟩ (fun _ => (uniRand N).choice) false
        (G.subgraph U) pop target eps f t k x w).1 = .error .runtimeError ∨
      ∃ S, (bipLoop ⟨span, memoBalance (uniRand N) false, r, some m⟩ (fun _ => (uniRand N).choice) false
        (G.subgraph U) pop target eps f t k x w).1 = .ok S ∧ S ⊆ U ∧ (ConnectedOn G S ∧ Near target eps (popOf pop S)) ∧
      (ConnectedOn G (U \ S) ∧ Near target eps (popOf pop (U \ S))) := by
    intro f
    induction f with
    | zero =>
      intro t k x w hxm hx
      omega
    | succ f ih =>
      intro t k x w _ hfx htU hE
      have hatt : ∀ (t : WTree V) (k : ℕ) (w : Tape), x < m → t.graph.nodes = U → t.graph.edges ∈ treeSets (G.subgraph U) →
          (attemptOn ⟨span, memoBalance (uniRand N) false, r, some m⟩ (fun _ => (uniRand N).choice)
            (G.subgraph U) pop target eps f k x t w).1 = .error .runtimeError ∨
          ∃ S, (attemptOn ⟨span, memoBalance (uniRand N) false, r, some m⟩ (fun _ => (uniRand N).choice)
            (G.subgraph U) pop target eps f k x t w).1 = .ok S ∧ S ⊆ U ∧ (ConnectedOn G S ∧ Near target eps (popOf pop S)) ∧
      (ConnectedOn G (U \ S) ∧ Near target eps (popOf pop (U \ S))) := by
        intro t k w hx htU hE
        obtain ⟨-, ht⟩ := (mem_treeSets hU).1 hE
        have hg : t.graph = ⟨U, t.graph.edges⟩ := by rw [← htU]
        unfold attemptOn
        rcases memo_on_tree (G := G) (N := N) (pop := pop) (target := target) (eps := eps) hN ht t.weight w with ⟨-, cuts, w', h1, hc⟩ | ⟨h2, -⟩
        · have h1' : (⟨span, memoBalance (uniRand N) false, r, some m⟩ : BipConfig V Tape).balanceFn
              (PopGraph.init (G.subgraph U).nodes t.graph t.weight pop target eps) w = (.ok cuts, w') := by
            rw [hn, hg]; exact h1
          rw [M.bind_ok h1']
          by_cases hne : cuts ≠ []
          · rw [if_pos hne]
            obtain ⟨c, hcm, w'', hw⟩ := (uniRand_valid hN).choice_mem cuts w' hne
            rw [M.bind_ok hw]
            right
            obtain ⟨g1, g2⟩ := hc.sides hG hU hE hcm
            exact ⟨c.subset, rfl, (hc.split hG hU hE hcm).1, g1, g2⟩
          · rw [if_neg hne]
            exact ih t _ _ _ (by omega) (by omega) htU hE
        · omega
      by_cases hx : x < m
      · by_cases hk : k = r
        · subst hk
          rw [bipLoop_fresh rfl hx]
          obtain ⟨t', w', hw, h1, h2⟩ := hspan.returns w
          rw [M.bind_ok (m := (⟨span, memoBalance (uniRand N) false, k, some m⟩ : BipConfig V Tape).spanFn (G.subgraph U)) hw]
          exact hatt t' 0 w' hx h1 h2
        · rw [bipLoop_same rfl hx hk]
          exact hatt t k w hx htU hE
      · rw [bipLoop_over rfl (by omega)]
        exact .inl rfl
  unfold bipartitionTree
  obtain ⟨t', w', hw, h1, h2⟩ := hspan.returns w
  simp only
  rw [M.bind_ok hw]
  exact hloop (m + 1) t' 0 0 w' (Nat.zero_le _) (by omega) h1 h2

/-- one pair of districts: the exception `RuntimeError`, or another plan -/
theorem pair_result (hG : G.WF) (hN : EvenTape G N) (hr : 0 < r) (hl : TreeLaw N d0 G span μ) (ha : a.Coherent) (hp : IsPlan G pop target eps k a.plan) {p q : P}
    (hne : p ≠ q) {s t : Finset V} (hs : a.parts.get? p = some s) (ht : a.parts.get? q = some t) (hcon : ConnectedOn G (s ∪ t)) (h3 : 3 ≤ (s ∪ t).card) (w : Tape) :
    (recomPair (spanMethod N r m span pop) G a pop target eps (p, q) w).1 = .error .runtimeError ∨
    ∃ flips b, (recomPair (spanMethod N r m span pop) G a pop target eps (p, q) w).1 = .ok flips ∧ a.flip flips = .ok b ∧ b.Coherent ∧
      IsPlan G pop target eps k b.plan ∧ (b.plan = a.plan ∨ Exchange a.plan b.plan) := by
  have h := setup_of_plan (r := r) hG hN hr ha hp
  have hU : s ∪ t ⊆ G.nodes := Finset.union_subset (h.sub hs) (h.sub ht)
  rw [recomPair_eq h hs ht]
  have hres := bip_result (r := r) (m := m) (pop := pop) (target := target) (eps := eps) hG hN.1 hU h3 (hl.on _ hU hcon) w
  rcases hb : bipartitionTree (⟨span, memoBalance (uniRand N) false, r, some m⟩ : BipConfig V Tape) (fun _ => (uniRand N).choice) false (m + 1) none
    (G.subgraph (s ∪ t)) pop target eps w with ⟨e | S, w'⟩
  · rw [M.bind_error hb]
    rw [hb] at hres
    rcases hres with hres | ⟨S, hS, -⟩
    · left
      cases hres
      rfl
    · cases hS
  · rw [M.bind_ok hb]
    rw [hb] at hres
    rcases hres with hres | ⟨S', hS', hsub, g1, g2⟩
    · cases hres
    · cases hS'
      right
      obtain ⟨b, hb'⟩ := cutFlips_total (G := G) ha hs ht hsub
      have hplan := plan_cutFlips ha hne hs ht (h.contiguous _ _ hs).1 (h.contiguous _ _ ht).1 hsub hb'
      have hsQ : s ∈ a.plan := (mem_plan ha).2 ⟨p, hs⟩
      have htQ : t ∈ a.plan := (mem_plan ha).2 ⟨q, ht⟩
      have hst : s ≠ t := by
        rintro rfl
        exact hne (label_unique ha h.contiguous hs ht)
      have hbp : IsPlan G pop target eps k b.plan := by
        rw [hplan]
        exact split_isPlan hp hsQ htQ hst (Finset.union_sdiff_of_subset hsub) Finset.disjoint_sdiff g1 g2
      refine ⟨_, b, ?_, hb', (flip_ok ha (cutFlips_wf p q (s ∪ t) S) hb').1, hbp, rest_exchange hp hbp hsQ htQ hst ?_⟩
      · show splitFlips pop target eps p q (s ∪ t) S = _
        exact splitFlips_near g1.2 g2.2
      · rw [hplan]
        exact Finset.subset_union_left

/-- one pair of districts: the probability of a plan -/
theorem pair_chance (hG : G.WF) (hN : EvenTape G N) (hr : 0 < r) (hl : TreeLaw N d0 G span μ) (ha : a.Coherent) (hp : IsPlan G pop target eps k a.plan)
    (hX : IsPlan G pop target eps k X) {p q : P} (hne : p ≠ q) {s t : Finset V} (hs : a.parts.get? p = some s) (ht : a.parts.get? q = some t)
    (hcon : ConnectedOn G (s ∪ t)) (h3 : 3 ≤ (s ∪ t).card) (L : ℕ) (hL : 2 + m * (d0 + (1 + 2 * (s ∪ t).card)) ≤ L) :
    avg N L (fun w => arriveHit a X (recomPair (spanMethod N r m span pop) G a pop target eps (p, q) w).1) =
      resplitChance G pop target eps μ a.plan {s, t} X * seenChance r m G pop target eps μ (({s, t} : Finset (Finset V)).biUnion id) := by
  have h := setup_of_plan (r := r) hG hN hr ha hp
  have hsQ : s ∈ a.plan := (mem_plan ha).2 ⟨p, hs⟩
  have htQ : t ∈ a.plan := (mem_plan ha).2 ⟨q, ht⟩
  have hst : s ≠ t := by
    rintro rfl
    exact hne (label_unique ha h.contiguous hs ht)
  unfold resplitChance
  rw [biUnion_pair]
  by_cases hsub : a.plan \ {s, t} ⊆ X
  · rw [if_pos hsub]
    obtain ⟨A, B, hAB, hD, hA, hB, hunion, hdis, hA0, hB0, hmatch⟩ := replaced_pair hp hX hsQ htQ hst hsub
    rw [hD, drawChance_pair hdis]
    exact pair_matched h hl hne hs ht hcon h3 hunion hdis hA0 hB0 (hX.2.2 A hA).2 (hX.2.2 B hB).2 hmatch L hL
  · rw [if_neg hsub, zero_mul]
    refine pair_unmatched h hl hne hs ht hcon (fun S _ _ _ he => hsub ?_) L hL
    rw [← he]
    exact Finset.subset_union_left

/-- the districts of the labels at the ends of a cut edge -/
theorem cut_labels (hs : RecomSetting G pop target eps k) (ha : a.Coherent) (hp : IsPlan G pop target eps k a.plan) {e : V × V} (he : e ∈ cutsOf G a.mapping)
    {pq : P × P} (hpq : endLabels a e = .ok pq) :
    ∃ s t, a.parts.get? (sortPair pq).1 = some s ∧ a.parts.get? (sortPair pq).2 = some t ∧ (sortPair pq).1 ≠ (sortPair pq).2 ∧ touching a.plan e = {s, t} ∧
      ConnectedOn G (s ∪ t) ∧ 3 ≤ (s ∪ t).card ∧ s ∪ t ⊆ G.nodes := by
  obtain ⟨hcov, hc⟩ := labelled ha hp
  obtain ⟨k1, k2⟩ := endLabels_ok hpq
  obtain ⟨he1, he2⟩ := mem_cutsOf.1 he
  obtain ⟨s, hs'⟩ := Dict.mem_keys_iff.1 (ha.complete _ _ k1)
  obtain ⟨t, ht'⟩ := Dict.mem_keys_iff.1 (ha.complete _ _ k2)
  have hsQ : s ∈ a.plan := (mem_plan ha).2 ⟨_, hs'⟩
  have htQ : t ∈ a.plan := (mem_plan ha).2 ⟨_, ht'⟩
  have h1 := (ha.agree _ s hs' _).2 k1
  have h2 := (ha.agree _ t ht' _).2 k2
  have hne : pq.1 ≠ pq.2 := fun hpe => he2 (by rw [k1, k2, hpe])
  have hst : s ≠ t := by
    rintro rfl
    exact hne (label_unique ha hc hs' ht')
  have hcon := connectedOn_union (hc _ s hs') (hc _ t ht') h1 h2 he1.2
  have h3 := hs.room _ (mem_plans.2 hp) s hsQ t htQ hst ⟨_, h1, _, h2, he1.2⟩
  have hU : s ∪ t ⊆ G.nodes := Finset.union_subset (hp.sub hsQ) (hp.sub htQ)
  have htch := touching_eq hp.1 hsQ htQ h1 h2
  rcases sortPair_cases pq with e1 | e1 <;> rw [e1]
  · exact ⟨s, t, hs', ht', hne, htch, hcon, h3, hU⟩
  · exact ⟨t, s, ht', hs', hne.symm, by rw [htch, Finset.pair_comm], by rwa [Finset.union_comm], by rwa [Finset.union_comm], by rwa [Finset.union_comm]⟩

/-- the program: a cut edge is drawn, and the districts at its ends are split -/
theorem spanMove_eq (hs : RecomSetting G pop target eps k) (hN : EvenTape G N) (hr : 0 < r) (hl : TreeLaw N d0 G span μ) (hf : 0 < fuel) (ha : a.Coherent)
    (hp : IsPlan G pop target eps k a.plan) (w : Tape) :
    ∃ e ∈ cutsOf G a.mapping, ∃ pq w1, endLabels a e = .ok pq ∧ (uniRand N).choice (iterE (cutsOf G a.mapping)) w = (.ok e, w1) ∧
      spanMove N r m span fuel G a pop target eps w = recomPair (spanMethod N r m span pop) G a pop target eps (sortPair pq) w1 := by
  obtain ⟨f, rfl⟩ : ∃ f, fuel = f + 1 := ⟨fuel - 1, by omega⟩
  have h := setup_of_plan (r := r) hs.wf hN hr ha hp
  have hcard := (sum_cuts hs.wf ha hp.1 (fun _ => 0) (fun _ => rfl)).2
  have hpos : 0 < (cutsOf G a.mapping).card := by
    rw [hcard]
    exact Finset.card_pos.2 (between_nonempty hs hp)
  have hlen : (iterE (cutsOf G a.mapping)).length = (cutsOf G a.mapping).card := length_iterE _
  have hnil : iterE (cutsOf G a.mapping) ≠ [] := by
    intro e
    rw [e] at hlen
    simp at hlen
    omega
  have htot : (∅ : Finset (P × P)).card < totPairs a.parts.keys.length := by
    have e1 : a.parts.keys.length = k := by rw [← card_plan ha h.contiguous, hp.2.1]
    rw [Finset.card_empty, e1]
    unfold totPairs
    have h2 := hs.two
    have : 2 ≤ k * (k - 1) := by
      have : 1 ≤ k - 1 := by omega
      nlinarith
    omega
  obtain ⟨e, he, w1, hw⟩ := (uniRand_valid hN.1).choice_mem (iterE (cutsOf G a.mapping)) w hnil
  rw [mem_iterE] at he
  obtain ⟨pq, hpq⟩ := endLabels_total hs.wf h.covers (u := e.1) (v := e.2) (mem_cutsOf.1 he).1.2
  refine ⟨e, he, pq, w1, hpq, hw, ?_⟩
  unfold spanMove
  conv_lhs => unfold recomLoop
  rw [if_pos htot, M.bind_ok hw]
  have hpq' : endLabels a e = .ok pq := hpq
  rw [hpq']
  show (if sortPair pq ∈ (∅ : Finset (P × P)) then
          recomLoop (uniRand N) (spanMethod N r m span pop) G a (cutsOf G a.mapping) pop target eps f ∅
        else M.onReselect (recomPair (spanMethod N r m span pop) G a pop target eps (sortPair pq))
          (recomLoop (uniRand N) (spanMethod N r m span pop) G a (cutsOf G a.mapping) pop target eps f (insert (sortPair pq) ∅))) w1 = _
  rw [if_neg (Finset.notMem_empty _)]
  obtain ⟨s, t, h1, h2, -, -, hcon, -, -⟩ := cut_labels hs ha hp he hpq
  have hres : (recomPair (spanMethod N r m span pop) G a pop target eps (sortPair pq) w1).1 ≠ .error .reselectException :=
    pair_no_reselect h hl h1 h2 hcon w1
  rcases hrr : M.onReselect (recomPair (spanMethod N r m span pop) G a pop target eps (sortPair pq))
      (recomLoop (uniRand N) (spanMethod N r m span pop) G a (cutsOf G a.mapping) pop target eps f (insert (sortPair pq) ∅)) w1 with ⟨y, w'⟩
  rcases M.onReselect_eq hrr with ⟨w2, k', -⟩ | ⟨k', -⟩
  · rw [k'] at hres
    exact absurd rfl hres
  · rw [k']

theorem draws_spanMove (hs : RecomSetting G pop target eps k) (hN : EvenTape G N) (hr : 0 < r) (hl : TreeLaw N d0 G span μ) (hf : 0 < fuel) (ha : a.Coherent)
    (hp : IsPlan G pop target eps k a.plan) : Draws (1 + cutDraws d0 m G) (spanMove N r m span fuel G a pop target eps) := by
  have h := setup_of_plan (r := r) hs.wf hN hr ha hp
  have hprog : spanMove N r m span fuel G a pop target eps = (uniRand N).choice (iterE (cutsOf G a.mapping)) >>= fun e =>
      M.lift (endLabels a e) >>= fun pq => recomPair (spanMethod N r m span pop) G a pop target eps (sortPair pq) := by
    funext w
    obtain ⟨e, he, pq, w1, hpq, hw, heq⟩ := spanMove_eq (m := m) hs hN hr hl hf ha hp w
    rw [heq, M.bind_ok hw, hpq]
    rfl
  rw [hprog]
  refine (draws_choice N _).bind_reach (fun t t' e he => ?_)
  have hmem : e ∈ cutsOf G a.mapping := by
    obtain ⟨e', he', pq, w1, -, hw, -⟩ := spanMove_eq (m := m) hs hN hr hl hf ha hp t
    rw [hw] at he
    cases he
    exact he'
  obtain ⟨pq, hpq⟩ := endLabels_total hs.wf h.covers (u := e.1) (v := e.2) (mem_cutsOf.1 hmem).1.2
  have hpq' : endLabels a e = .ok pq := hpq
  rw [hpq']
  show Draws _ (recomPair (spanMethod N r m span pop) G a pop target eps (sortPair pq))
  obtain ⟨s, t, h1, h2, -, -, hcon, -, hU⟩ := cut_labels hs ha hp hmem hpq
  rw [show recomPair (spanMethod N r m span pop) G a pop target eps (sortPair pq) =
    recomPair (spanMethod N r m span pop) G a pop target eps ((sortPair pq).1, (sortPair pq).2) from rfl, recomPair_eq h h1 h2]
  exact (draws_oneCut hl hU hcon false).bind (j := 0) (fun S => draws_lift 0 _)

/-- what `recom` returns -/
theorem move_result (hs : RecomSetting G pop target eps k) (hN : EvenTape G N) (hr : 0 < r) (hl : TreeLaw N d0 G span μ) (hf : 0 < fuel) (ha : a.Coherent)
    (hp : IsPlan G pop target eps k a.plan) (w : Tape) :
    (spanMove N r m span fuel G a pop target eps w).1 = .error .runtimeError ∨
    ∃ flips b, (spanMove N r m span fuel G a pop target eps w).1 = .ok flips ∧ a.flip flips = .ok b ∧ b.Coherent ∧ IsPlan G pop target eps k b.plan ∧
      (b.plan = a.plan ∨ Exchange a.plan b.plan) := by
  obtain ⟨e, he, pq, w1, hpq, hw, heq⟩ := spanMove_eq (m := m) hs hN hr hl hf ha hp w
  obtain ⟨s, t, h1, h2, hne, -, hcon, h3, -⟩ := cut_labels hs ha hp he hpq
  rw [heq]
  exact pair_result hs.wf hN hr hl ha hp hne h1 h2 hcon h3 w1

/-- the probability that `recom` goes to a plan -/
theorem move_chance (hs : RecomSetting G pop target eps k) (hN : EvenTape G N) (hr : 0 < r) (hl : TreeLaw N d0 G span μ) (hf : 0 < fuel) (ha : a.Coherent)
    (hp : IsPlan G pop target eps k a.plan) (hX : IsPlan G pop target eps k X) (L : ℕ) (hL : recomDraws d0 m G ≤ L) :
    avg N L (fun w => arriveHit a X (spanMove N r m span fuel G a pop target eps w).1) = recomKernelIn r m G pop target eps μ a.plan X := by
  have h := setup_of_plan (r := r) hs.wf hN hr ha hp
  unfold recomDraws at hL
  obtain ⟨L, rfl⟩ : ∃ L', L = L' + 1 := ⟨L - 1, by omega⟩
  obtain ⟨h1, h2⟩ := sum_cuts hs.wf ha hp.1 (fun e => resplitChance G pop target eps μ a.plan (touching a.plan e) X *
    seenChance r m G pop target eps μ ((touching a.plan e).biUnion id)) (fun e => by rw [touching_sort])
  have := move_average (r := r) (m := m) (Q := X) (pop := pop) (target := target) (eps := eps) h hl hf L (x := fun e => resplitChance G pop target eps μ a.plan (touching a.plan e) X *
    seenChance r m G pop target eps μ ((touching a.plan e).biUnion id)) ?_
  · rw [h1, h2] at this
    exact this
  · intro e he pq hpq
    obtain ⟨s, t, g1, g2, hne, htch, hcon, h3, hU⟩ := cut_labels hs ha hp he hpq
    rw [htch]
    refine pair_chance hs.wf hN hr hl ha hp hX hne g1 g2 hcon h3 L (le_trans ?_ (by omega : 2 + m * (d0 + (1 + 2 * G.nodes.card)) ≤ L))
    have := Finset.card_le_card hU
    have : m * (d0 + (1 + 2 * (s ∪ t).card)) ≤ m * (d0 + (1 + 2 * G.nodes.card)) := Nat.mul_le_mul_left _ (by omega)
    omega

/-- what the proposal makes of it -/
theorem proposal_result (hs : RecomSetting G pop target eps k) (hN : EvenTape G N) (hr : 0 < r) (hl : TreeLaw N d0 G span μ) (hf : 0 < fuel)
    (hx : GoodState G pop target eps k x) (w : Tape) :
    ((recomProposal N r m span fuel G pop target eps x w).1 = .error .runtimeError ∧
      ∀ X, arriveHit x.plan X (spanMove N r m span fuel G x.plan pop target eps w).1 = 0) ∨
    ∃ y, (recomProposal N r m span fuel G pop target eps x w).1 = .ok y ∧ GoodState G pop target eps k y ∧
      (y.plan.plan = x.plan.plan ∨ Exchange x.plan.plan y.plan.plan) ∧ ∀ X, arriveHit x.plan X (spanMove N r m span fuel G x.plan pop target eps w).1 = if y.plan.plan = X then 1 else 0 := by
  obtain ⟨ha, hp⟩ := hx
  have hres := move_result (m := m) hs hN hr hl hf ha hp w
  unfold recomProposal
  rcases hm : spanMove N r m span fuel G x.plan pop target eps w with ⟨res, w'⟩
  rw [hm] at hres
  rcases hres with hres | ⟨flips, b, hres, hb, hbc, hbp, hex⟩
  · left
    dsimp only at hres
    subst hres
    rw [M.bind_error hm]
    exact ⟨rfl, fun X => rfl⟩
  · right
    dsimp only at hres
    subst hres
    rw [M.bind_ok hm]
    refine ⟨⟨b, some x.plan⟩, ?_, ⟨hbc, hbp⟩, hex, fun X => ?_⟩
    · show (M.lift (x.flip flips) w').1 = _
      unfold PlanState.flip
      rw [hb]
      rfl
    · unfold arriveHit arrives
      show (if landsOn x.plan X (.ok (some flips)) = true then (1 : ℚ) else 0) = _
      unfold landsOn
      simp only [hb, decide_eq_true_eq]

theorem draws_recomProposal (hs : RecomSetting G pop target eps k) (hN : EvenTape G N) (hr : 0 < r) (hl : TreeLaw N d0 G span μ) (hf : 0 < fuel)
    (hx : GoodState G pop target eps k x) : Draws (recomDraws d0 m G) (recomProposal N r m span fuel G pop target eps x) := by
  unfold recomProposal
  refine ((draws_spanMove (m := m) hs hN hr hl hf hx.1 hx.2).bind (j := 0) (fun flips => draws_lift 0 _)).mono ?_
  unfold cutDraws recomDraws
  omega

end move

end GC

import Verif.Lemmas.ChainLaw
import Verif.Lemmas.Can
import Verif.Model.FlipWalk
import Verif.Props.Stationary
import Verif.Props.RecLaw

/-!
# C103: what a long run of `reversible_recom` samples

The law of the list of the states of `MarkovChain(reversible_recom, ...)`, its limit and the averages over the ensemble.
-/

set_option linter.unusedSectionVars false
set_option autoImplicit false

namespace GC

variable {V P : Type} [LinearOrder V] [LinearOrder P]

/-- `reversible_recom` (proposals/tree_proposals.py:149-267) on values, with the ideal uniform spanning tree.  When it returns the partition itself, the
chain has erased the parent of that partition (chain.py:187-189). -/
noncomputable def revProposal (N bound fuel : ℕ) (G : Graph V) (pop : V → ℚ) (target eps : ℚ) (x : PlanState V P) : M Tape (PlanState V P) := do
  let r ← revMove N bound fuel G x.plan pop target eps
  match r with
  | none => pure ⟨x.plan, none⟩
  | some flips => M.lift (x.flip flips)

/-- `MarkovChain(reversible_recom, constraints, always_accept, initial_state, total_steps)` (chain.py:51-101) with the initial state and `n` moves -/
noncomputable def revChain (N bound fuel : ℕ) (G : Graph V) (pop : V → ℚ) (target eps : ℚ) (a : Assignment V P) (n : ℕ) : ChainCfg Tape (PlanState V P) :=
  flipChain (revProposal N bound fuel G pop target eps) alwaysAccept ⟨a, none⟩ ((n + 1 : ℕ) : ℤ)

/-! ### The transition probabilities between plans -/

/-- two plans that differ in exactly two districts -/
def Exchange (Q Q' : Finset (Finset V)) : Prop := (Q \ Q').card = 2 ∧ (Q' \ Q).card = 2

instance (Q Q' : Finset (Finset V)) : Decidable (Exchange Q Q') := by unfold Exchange; infer_instance

theorem Exchange.symm {Q Q' : Finset (Finset V)} (h : Exchange Q Q') : Exchange Q' Q := ⟨h.2, h.1⟩

theorem Exchange.ne {Q Q' : Finset (Finset V)} (h : Exchange Q Q') : Q ≠ Q' := by
  rintro rfl
  have := h.1
  simp at this

/-- the probability of going from a plan to another one in one move -/
noncomputable def exchangeProb (bound : ℕ) (G : Graph V) (Q Q' : Finset (Finset V)) : ℚ :=
  if Exchange Q Q' then 2 * ((∏ X ∈ Q' \ Q, numTrees G X : ℕ) : ℚ) / (Q.card ^ 2 * (bound * numTrees G ((Q \ Q').biUnion id))) else 0

/-- the same with the probability of staying -/
noncomputable def revKernel (bound : ℕ) (G : Graph V) (pop : V → ℚ) (target eps : ℚ) (k : ℕ) (Q Q' : Finset (Finset V)) : ℚ :=
  if Q = Q' then 1 - ∑ X ∈ (plans G pop target eps k).erase Q, exchangeProb bound G Q X else exchangeProb bound G Q Q'

/-- The assumptions about the graph: no tree has more balanced cuts than the bound `M`, and two districts that touch have at least three nodes together, for
otherwise an exception ends the chain. -/
structure RevSetting (G : Graph V) (pop : V → ℚ) (target eps : ℚ) (k bound : ℕ) : Prop where
  wf : G.WF
  kpos : 0 < k
  bpos : 0 < bound
  bound : ∀ U ⊆ G.nodes, ∀ E ∈ treeSets (G.subgraph U), (balancedEdges U E pop target eps).card ≤ bound
  room : ∀ Q ∈ plans G pop target eps k, RoomToCut G Q

/-- the numbers on the tape are fair for all choices among the plans of the graph -/
def FairTape (G : Graph V) (bound N : ℕ) : Prop := 0 < N ∧ (G.nodes.card ^ 2 + 2 ^ G.edges.card + bound * G.edges.card).factorial ∣ N

section steps
variable {G : Graph V} {pop : V → ℚ} {target eps : ℚ} {k bound N fuel : ℕ} {a : Assignment V P}

theorem transition_eq (hs : RevSetting G pop target eps k bound) (hN : FairTape G bound N) (hf : 0 < fuel) (ha : a.Coherent)
    (hp : IsPlan G pop target eps k a.plan) {Q : Finset (Finset V)} (hQ : Q ∈ plans G pop target eps k) (L : ℕ) (hL : 6 + 2 * G.nodes.card ≤ L) :
    transition N L bound fuel G pop target eps a Q = revKernel bound G pop target eps k a.plan Q := by
  obtain ⟨hcov, hc⟩ := labelled ha hp
  have hoff : ∀ Q ∈ plans G pop target eps k, a.plan ≠ Q → transition N L bound fuel G pop target eps a Q = exchangeProb bound G a.plan Q := by
    intro Q hQ hne
    obtain ⟨h1, h2, h3⟩ := mem_plans.1 hQ
    rw [C56_transition_formula G hs.wf pop target eps bound hs.bound a ha hcov hc Q h1 (fun X hX => (h3 X hX).2) hne fuel hf N hN.1 hN.2 L hL]
    unfold exchangeProb Exchange
    congr 1
  unfold revKernel
  by_cases he : a.plan = Q
  · rw [if_pos he]
    have hsum := sum_transition hs.wf hN.1 hs.bound ha hp hs.kpos (hs.room _ (mem_plans.2 hp)) fuel hf L
    rw [← Finset.add_sum_erase _ _ (mem_plans.2 hp)] at hsum
    rw [← he, ← hsum, Finset.sum_congr rfl (fun X hX => hoff X (Finset.mem_of_mem_erase hX) (Finset.ne_of_mem_erase hX).symm)]
    ring
  · rw [if_neg he, hoff Q hQ he]

theorem draws_revMove (N bound f : ℕ) (G : Graph V) (a : Assignment V P) (pop : V → ℚ) (target eps : ℚ) :
    Draws (6 + 2 * G.nodes.card) (revMove N bound (f + 1) G a pop target eps) := by
  unfold revMove
  rw [revFlips_eq]
  have e : 6 + 2 * G.nodes.card = 1 + (1 + (1 + ((1 + 2 * G.nodes.card) + (1 + 1)))) := by omega
  rw [e]
  refine (draws_choice N _).bind (fun pair => ?_)
  unfold revPair
  split_ifs
  · exact draws_pure _ _
  refine (draws_choice N _).bind (fun edge => ?_)
  unfold revEdge
  refine ((draws_lift 0 _).bind (fun pq => ?_)).mono (Nat.le_of_eq (Nat.zero_add _))
  refine ((draws_lift 0 _).bind (fun s => ?_)).mono (Nat.le_of_eq (Nat.zero_add _))
  have hspan : Draws 1 (uniformSpan N (G.subgraph s)) := (draws_choice N _).bind (j := 0) (fun E => draws_pure _ _)
  refine hspan.bind_reach (fun w w' t ht => ?_)
  have hn : t.graph.nodes = (G.subgraph s).nodes := by
    unfold uniformSpan at ht
    obtain ⟨E, w1, -, h2⟩ := M.bind_eq_ok ht
    cases h2
    rfl
  have hle : t.graph.nodes.card ≤ G.nodes.card := by
    rw [hn]
    exact Finset.card_le_card (Finset.filter_subset _ _)
  unfold revTree
  refine Draws.bind ((draws_bounded N bound _).mono ?_) (fun cuts => ?_)
  · show 1 + 2 * t.graph.nodes.card ≤ _
    omega
  unfold revCuts
  split_ifs
  · exact draws_pure _ _
  refine (draws_choice N _).bind (fun c => ?_)
  unfold revCut
  refine ((draws_lift 0 _).bind (fun b => ?_)).mono (Nat.le_of_eq (Nat.zero_add _))
  refine ((draws_lift 0 _).bind (fun p => ?_)).mono (Nat.le_of_eq (Nat.zero_add _))
  split_ifs
  · exact .done (.error _) (fun _ => rfl)
  refine (draws_random N).bind (j := 0) (fun x => ?_)
  split_ifs <;> exact draws_pure _ _

/-- a state that the chain can be in -/
def GoodState (G : Graph V) (pop : V → ℚ) (target eps : ℚ) (k : ℕ) (x : PlanState V P) : Prop :=
  x.plan.Coherent ∧ IsPlan G pop target eps k x.plan.plan

/-- what the proposal returns, and where that is -/
theorem proposal_ok (hs : RevSetting G pop target eps k bound) (hN : 0 < N) (hf : 0 < fuel) {x : PlanState V P} (hx : GoodState G pop target eps k x) (t : Tape) :
    ∃ y t', revProposal N bound fuel G pop target eps x t = (.ok y, t') ∧ GoodState G pop target eps k y ∧
      ∀ Q, landsOn x.plan Q (revMove N bound fuel G x.plan pop target eps t).1 = true ↔ y.plan.plan = Q := by
  obtain ⟨ha, hp⟩ := hx
  obtain ⟨hcov, hc⟩ := labelled ha hp
  obtain ⟨r, t', hr⟩ := move_total hs.wf hN hs.bound ha hp hs.kpos (hs.room _ (mem_plans.2 hp)) fuel hf t
  unfold revProposal
  rw [M.bind_ok hr, hr]
  rcases r with _ | flips
  · refine ⟨⟨x.plan, none⟩, t', rfl, ⟨ha, hp⟩, fun Q => ?_⟩
    unfold landsOn
    simp
  · obtain ⟨hwf, b, hb, -⟩ := C40_result (uniRand N) (uniRand_valid hN) (uniformSpan N) (spanOk_ideal N) (memoBalance (uniRand N))
      (balanceOk_memo (uniRand N) (uniRand_valid hN)) bound false fuel G hs.wf x.plan ha hcov hc pop target eps t t' flips hr
    have hbc : b.Coherent := (flip_ok ha hwf hb).1
    obtain ⟨Q0, hQ0, huniq⟩ := move_lands hs.wf hN ha hp fuel hr
    have hlands : ∀ Q, landsOn x.plan Q (.ok (some flips)) = true ↔ b.plan = Q := by
      intro Q
      unfold landsOn
      simp [hb]
    have hbQ : b.plan = Q0 := (hlands Q0).1 ((huniq Q0).2 rfl)
    refine ⟨⟨b, some x.plan⟩, t', ?_, ⟨hbc, ?_⟩, hlands⟩
    · show (M.lift (x.flip flips) : M Tape _) t' = _
      unfold PlanState.flip
      rw [hb]
      rfl
    · show IsPlan G pop target eps k b.plan
      rw [hbQ]
      exact mem_plans.1 hQ0

theorem step_revChain (n : ℕ) (x : PlanState V P) :
    chainStep (revChain N bound fuel G pop target eps a n) x = revProposal N bound fuel G pop target eps x := by
  funext t
  show M.bind (revProposal N bound fuel G pop target eps x) _ t = _
  unfold M.bind
  rcases revProposal N bound fuel G pop target eps x t with ⟨_ | y, t'⟩ <;> rfl

/-- constraints that all plans satisfy -/
def Harmless (G : Graph V) (pop : V → ℚ) (target eps : ℚ) (k : ℕ) (cs : List (Constraint Tape (PlanState V P))) : Prop :=
  ∀ x t, GoodState G pop target eps k x → validator x cs t = (.ok true, t)

theorem harmless_nil : Harmless (P := P) G pop target eps k [] := fun _ _ _ => rfl

/-- the chain of plans -/
theorem revChain_law (hs : RevSetting G pop target eps k bound) (hN : FairTape G bound N) (hf : 0 < fuel)
    {cs : List (Constraint Tape (PlanState V P))} (hcs : Harmless G pop target eps k cs) (n : ℕ) :
    StepLaw N (6 + 2 * G.nodes.card) (revChain N bound fuel G pop target eps a n) cs (GoodState G pop target eps k) (fun x => x.plan.plan)
      (plans G pop target eps k) (revKernel bound G pop target eps k) where
  erase := fun _ _ => rfl
  draws := by
    intro x hx
    rw [step_revChain]
    obtain ⟨f, rfl⟩ : ∃ f, fuel = f + 1 := ⟨fuel - 1, by omega⟩
    unfold revProposal
    refine (draws_revMove N bound f G x.plan pop target eps).bind (j := 0) (fun r => ?_)
    cases r with
    | none => exact draws_pure _ _
    | some flips => exact draws_lift _ _
  total := by
    intro x hx t
    obtain ⟨y, t', h1, h2, -⟩ := proposal_ok hs hN.1 hf hx t
    exact ⟨y, t', true, t', h1, hcs y t' h2, rfl, h2⟩
  mem := fun x hx => mem_plans.2 hx.2
  law := by
    intro x hx Q hQ
    rw [← transition_eq hs hN hf hx.1 hx.2 hQ _ le_rfl]
    unfold transition prob
    refine avg_congr _ _ (fun t => ?_)
    rw [step_revChain]
    obtain ⟨y, t', h1, -, h3⟩ := proposal_ok hs hN.1 hf hx t
    rw [h1]
    unfold ended
    simp only [h3]

/-! ### The plans that can be reached -/

theorem crossing_edge {X A B : Finset V} (hX : X ⊆ A ∪ B) (hAB : Disjoint A B) {u v : V} (hu : u ∈ A) (hv : v ∈ B) (h : ReachIn G X u v) :
    ∃ x ∈ A, ∃ y ∈ B, G.Adj x y := by
  induction h using Relation.ReflTransGen.head_induction_on with
  | refl => exact absurd hv (Finset.disjoint_left.1 hAB hu)
  | head h1 _ ih =>
    rename_i x y _
    rcases Finset.mem_union.1 (hX h1.2.2) with h | h
    · exact ih h
    · exact ⟨x, hu, y, h, h1.1⟩

/-- the nodes of the exchanged districts are connected -/
theorem exchange_connected {Q Q' : Finset (Finset V)} (hQ : IsPlan G pop target eps k Q) (hQ' : IsPlan G pop target eps k Q') (h : Exchange Q Q') :
    ConnectedOn G ((Q \ Q').biUnion id) := by
  obtain ⟨s, t, hst, hD⟩ := Finset.card_eq_two.1 h.1
  obtain ⟨A, B, hAB, hD'⟩ := Finset.card_eq_two.1 h.2
  have hU := partition_diff hQ.1 hQ'.1
  rw [hD, hD'] at hU
  simp only [Finset.biUnion_insert, Finset.singleton_biUnion, id] at hU
  have hs : s ∈ Q ∧ s ∉ Q' := Finset.mem_sdiff.1 (by rw [hD]; simp)
  have ht : t ∈ Q ∧ t ∉ Q' := Finset.mem_sdiff.1 (by rw [hD]; simp)
  have hA : A ∈ Q' ∧ A ∉ Q := Finset.mem_sdiff.1 (by rw [hD']; simp)
  have hB : B ∈ Q' ∧ B ∉ Q := Finset.mem_sdiff.1 (by rw [hD']; simp)
  have dAB : Disjoint A B := Finset.disjoint_left.2 (fun x h1 h2 => hAB (hQ'.1.disj A hA.1 B hB.1 x h1 h2))
  have dst : Disjoint s t := Finset.disjoint_left.2 (fun x h1 h2 => hst (hQ.1.disj s hs.1 t ht.1 x h1 h2))
  have key : ∀ X : Finset V, X ∈ Q → X ⊆ A ∪ B → (∃ u ∈ X, u ∈ A) → (∃ v ∈ X, v ∈ B) → ConnectedOn G (A ∪ B) := by
    rintro X hX hsub ⟨u, hu, huA⟩ ⟨v, hv, hvB⟩
    obtain ⟨x, hx, y, hy, hxy⟩ := crossing_edge hsub dAB huA hvB ((hQ.2.2 X hX).1.2 u hu v hv)
    exact connectedOn_union (hQ'.2.2 A hA.1).1 (hQ'.2.2 B hB.1).1 hx hy hxy
  rw [hD]
  simp only [Finset.biUnion_insert, Finset.singleton_biUnion, id]
  rw [hU]
  have hsub_s : s ⊆ A ∪ B := by rw [← hU]; exact Finset.subset_union_left
  have hsub_t : t ⊆ A ∪ B := by rw [← hU]; exact Finset.subset_union_right
  have hne : ∀ C D : Finset V, C ∈ Q' ∧ C ∉ Q → C ⊆ s ∪ t → Disjoint C D → s ⊆ C → t ⊆ D → False := by
    intro C D hC hsub hdis h1 h2
    apply hC.2
    have : C = s := by
      refine Finset.Subset.antisymm (fun x hx => ?_) h1
      rcases Finset.mem_union.1 (hsub hx) with h | h
      · exact h
      · exact absurd (h2 h) (Finset.disjoint_left.1 hdis hx)
    rw [this]
    exact hs.1
  by_cases h1 : (∃ u ∈ s, u ∈ A) ∧ ∃ v ∈ s, v ∈ B
  · exact key s hs.1 hsub_s h1.1 h1.2
  by_cases h2 : (∃ u ∈ t, u ∈ A) ∧ ∃ v ∈ t, v ∈ B
  · exact key t ht.1 hsub_t h2.1 h2.2
  exfalso
  have hin : ∀ X : Finset V, X ⊆ A ∪ B → ¬ ((∃ u ∈ X, u ∈ A) ∧ ∃ v ∈ X, v ∈ B) → X ⊆ A ∨ X ⊆ B := by
    intro X hX hno
    by_cases hA' : ∃ u ∈ X, u ∈ A
    · left
      intro x hx
      rcases Finset.mem_union.1 (hX hx) with h | h
      · exact h
      · exact absurd ⟨hA', x, hx, h⟩ hno
    · right
      intro x hx
      rcases Finset.mem_union.1 (hX hx) with h | h
      · exact absurd ⟨x, hx, h⟩ hA'
      · exact h
  obtain ⟨xA, hxA⟩ := (hQ'.2.2 A hA.1).1.1
  obtain ⟨xB, hxB⟩ := (hQ'.2.2 B hB.1).1.1
  have hAs : A ⊆ s ∪ t := by rw [hU]; exact Finset.subset_union_left
  have hBs : B ⊆ s ∪ t := by rw [hU]; exact Finset.subset_union_right
  rcases hin s hsub_s h1 with h3 | h3 <;> rcases hin t hsub_t h2 with h4 | h4
  · rcases Finset.mem_union.1 (hBs hxB) with h | h
    · exact Finset.disjoint_left.1 dAB (h3 h) hxB
    · exact Finset.disjoint_left.1 dAB (h4 h) hxB
  · exact hne A B hA hAs dAB h3 h4
  · exact hne B A hB hBs dAB.symm h3 h4
  · rcases Finset.mem_union.1 (hAs hxA) with h | h
    · exact Finset.disjoint_left.1 dAB hxA (h3 h)
    · exact Finset.disjoint_left.1 dAB hxA (h4 h)

theorem numTrees_pos' (hG : G.WF) {U : Finset V} (hU : U ⊆ G.nodes) (hc : ConnectedOn G U) : 0 < numTrees G U := by
  exact Finset.card_pos.2 (exists_tree (hG.subgraph U) ((connectedOn_subgraph (G := G) hU).2 hc))

theorem IsPlan.sub {Q : Finset (Finset V)} (hQ : IsPlan G pop target eps k Q) {X : Finset V} (hX : X ∈ Q) : X ⊆ G.nodes :=
  fun x hx => (hQ.1.cover x).2 ⟨X, hX, hx⟩

theorem treeWeight_pos (hG : G.WF) {Q : Finset (Finset V)} (hQ : IsPlan G pop target eps k Q) : 0 < treeWeight G Q := by
  unfold treeWeight
  have : 0 < ∏ X ∈ Q, numTrees G X := Finset.prod_pos (fun X hX => numTrees_pos' hG (hQ.sub hX) (hQ.2.2 X hX).1)
  exact_mod_cast this

theorem exchangeProb_nonneg (Q Q' : Finset (Finset V)) : 0 ≤ exchangeProb bound G Q Q' := by
  unfold exchangeProb
  split_ifs <;> positivity

theorem exchangeProb_pos (hs : RevSetting G pop target eps k bound) {Q Q' : Finset (Finset V)} (hQ : IsPlan G pop target eps k Q)
    (hQ' : IsPlan G pop target eps k Q') (h : Exchange Q Q') : 0 < exchangeProb bound G Q Q' := by
  unfold exchangeProb
  rw [if_pos h]
  have h1 : 0 < ∏ X ∈ Q' \ Q, numTrees G X := Finset.prod_pos (fun X hX =>
    numTrees_pos' hs.wf (hQ'.sub (Finset.mem_sdiff.1 hX).1) (hQ'.2.2 X (Finset.mem_sdiff.1 hX).1).1)
  have h2 : 0 < numTrees G ((Q \ Q').biUnion id) := by
    refine numTrees_pos' hs.wf ?_ (exchange_connected hQ hQ' h)
    intro x hx
    obtain ⟨X, hX, hx⟩ := Finset.mem_biUnion.1 hx
    exact hQ.sub (Finset.mem_sdiff.1 hX).1 hx
  have h3 : (0 : ℚ) < ((∏ X ∈ Q' \ Q, numTrees G X : ℕ) : ℚ) := by exact_mod_cast h1
  have h4 : (0 : ℚ) < numTrees G ((Q \ Q').biUnion id) := by exact_mod_cast h2
  have h5 : (0 : ℚ) < Q.card := by
    rw [hQ.2.1]
    exact_mod_cast hs.kpos
  have h6 : (0 : ℚ) < bound := by exact_mod_cast hs.bpos
  exact div_pos (mul_pos two_pos h3) (mul_pos (pow_pos h5 2) (mul_pos h6 h4))

/-- one plan after the other, each differing from the one before in exactly two districts -/
def ExReach (G : Graph V) (pop : V → ℚ) (target eps : ℚ) (k : ℕ) : Finset (Finset V) → Finset (Finset V) → Prop :=
  Relation.ReflTransGen (fun Q Q' => Exchange Q Q' ∧ IsPlan G pop target eps k Q')

open Classical in
/-- the plans that can be reached from a plan -/
noncomputable def reachable (G : Graph V) (pop : V → ℚ) (target eps : ℚ) (k : ℕ) (Q : Finset (Finset V)) : Finset (Finset (Finset V)) :=
  (plans G pop target eps k).filter (ExReach G pop target eps k Q)

theorem mem_reachable {Q Q' : Finset (Finset V)} : Q' ∈ reachable G pop target eps k Q ↔ IsPlan G pop target eps k Q' ∧ ExReach G pop target eps k Q Q' := by
  classical
  unfold reachable
  rw [Finset.mem_filter, mem_plans]

theorem ExReach.symm {Q Q' : Finset (Finset V)} (hQ : IsPlan G pop target eps k Q) (h : ExReach G pop target eps k Q Q') : ExReach G pop target eps k Q' Q := by
  have : ExReach G pop target eps k Q' Q ∧ IsPlan G pop target eps k Q' := by
    induction h with
    | refl => exact ⟨.refl, hQ⟩
    | tail _ h2 ih => exact ⟨.head ⟨h2.1.symm, ih.2⟩ ih.1, h2.2⟩
  exact this.1

theorem reachable_eq {Q Q' : Finset (Finset V)} (hQ : IsPlan G pop target eps k Q) (h : ExReach G pop target eps k Q Q') :
    reachable G pop target eps k Q' = reachable G pop target eps k Q := by
  ext X
  rw [mem_reachable, mem_reachable]
  exact ⟨fun hX => ⟨hX.1, h.trans hX.2⟩, fun hX => ⟨hX.1, (h.symm hQ).trans hX.2⟩⟩

/-- every plan that can be reached is that of a state the chain can be in -/
theorem reaches_state (hs : RevSetting G pop target eps k bound) (hN : FairTape G bound N) {Q : Finset (Finset V)} {x : PlanState V P}
    (hx : GoodState G pop target eps k x) (h : ExReach G pop target eps k x.plan.plan Q) : ∃ y : PlanState V P, GoodState G pop target eps k y ∧ y.plan.plan = Q := by
  induction h with
  | refl => exact ⟨x, hx, rfl⟩
  | @tail Q1 Q2 _ h2 ih =>
    obtain ⟨y, hy, rfl⟩ := ih
    have hpos := exchangeProb_pos hs hy.2 h2.2 h2.1
    have htr := transition_eq hs hN Nat.one_pos hy.1 hy.2 (mem_plans.2 h2.2) (6 + 2 * G.nodes.card) le_rfl
    rw [revKernel, if_neg h2.1.ne] at htr
    rw [← htr] at hpos
    obtain ⟨t, ht⟩ := exists_of_prob_pos hpos
    obtain ⟨z, t', -, hz, hl⟩ := proposal_ok hs hN.1 Nat.one_pos hy t
    exact ⟨z, hz, (hl Q2).1 ht⟩

theorem pairs_le (hN : FairTape G bound N) {x : PlanState V P} (hx : GoodState G pop target eps k x) : (allPairs x.plan).length ≤ N := by
  obtain ⟨ha, hp⟩ := hx
  obtain ⟨hcov, hc⟩ := labelled ha hp
  rw [length_allPairs, ← card_plan ha hc]
  have h1 : x.plan.plan.card ≤ G.nodes.card := by
    have hsub : G.nodes = x.plan.plan.biUnion id := by
      ext v
      rw [hp.1.cover v, Finset.mem_biUnion]
      rfl
    rw [hsub]
    refine Finset.card_le_card_biUnion (fun X hX Y hY hXY => ?_) (fun X hX => hp.1.nonempty X hX)
    exact Finset.disjoint_left.2 (fun v h1 h2 => hXY (hp.1.disj X hX Y hY v h1 h2))
  exact (Nat.pow_le_pow_left h1 2).trans (((Nat.le_add_right _ _).trans (Nat.le_add_right _ _)).trans
    ((Nat.self_le_factorial _).trans (Nat.le_of_dvd hN.1 hN.2)))

theorem can_stay (hs : RevSetting G pop target eps k bound) (hN : FairTape G bound N) {x : PlanState V P} (hx : GoodState G pop target eps k x) :
    Can N (revMove N bound 1 G x.plan pop target eps) none := by
  have hlen := pairs_le hN hx
  obtain ⟨ha, hp⟩ := hx
  obtain ⟨hcov, hc⟩ := labelled ha hp
  have hkeys : x.plan.parts.keys ≠ [] := by
    intro e
    have h1 := card_plan ha hc
    rw [e, hp.2.1, List.length_nil] at h1
    exact hs.kpos.ne' h1
  obtain ⟨p, hpk⟩ := List.exists_mem_of_ne_nil _ hkeys
  unfold revMove
  rw [revFlips_eq]
  refine (can_choice hlen (mem_allPairs.2 ⟨hpk, hpk⟩ : (p, p) ∈ allPairs x.plan)).bind ?_
  unfold revPair
  rw [if_pos (.inl rfl)]
  exact can_pure N none

theorem stay_le (N L : ℕ) (a : Assignment V P) [DecidablePred (fun r : Py (Option (Dict V P)) => r = .ok none)] :
    prob N L (revMove N bound 1 G a pop target eps) (fun r => r = .ok none) ≤ transition N L bound 1 G pop target eps a a.plan := by
  unfold transition prob avg
  refine div_le_div_of_nonneg_right (Finset.sum_le_sum (fun t _ => ?_)) (pow_nonneg (Nat.cast_nonneg _) _)
  beta_reduce
  generalize (revMove N bound 1 G a pop target eps (List.ofFn fun i => (t i : ℕ))).1 = r
  by_cases h : r = .ok none
  · subst h
    simp [landsOn]
  · rw [if_neg h]
    split_ifs <;> norm_num

/-- the move can leave the plan as it is -/
theorem revKernel_self_pos (hs : RevSetting G pop target eps k bound) (hN : FairTape G bound N) {x : PlanState V P} (hx : GoodState G pop target eps k x) :
    0 < revKernel bound G pop target eps k x.plan.plan x.plan.plan := by
  classical
  obtain ⟨L0, h0⟩ := (can_stay hs hN hx).prob_pos hN.1
  rw [← transition_eq hs hN Nat.one_pos hx.1 hx.2 (mem_plans.2 hx.2) (max L0 (6 + 2 * G.nodes.card)) (le_max_right _ _)]
  exact (h0 (max L0 (6 + 2 * G.nodes.card)) (le_max_left _ _)).trans_le (stay_le N _ x.plan)

/-- outside the plans that can be reached nothing happens -/
theorem revKernel_outside {Q0 Q Q' : Finset (Finset V)} (hQ : Q ∈ reachable G pop target eps k Q0) (hQ' : IsPlan G pop target eps k Q')
    (hn : Q' ∉ reachable G pop target eps k Q0) : revKernel bound G pop target eps k Q Q' = 0 := by
  have hno : ¬ Exchange Q Q' := fun h => hn (mem_reachable.2 ⟨hQ', (mem_reachable.1 hQ).2.tail ⟨h, hQ'⟩⟩)
  unfold revKernel exchangeProb
  rw [if_neg (fun h : Q = Q' => hn (h ▸ hQ)), if_neg hno]

/-! ### The chain of the plans that can be reached -/

theorem exists_fairTape (G : Graph V) (bound : ℕ) : ∃ N, FairTape G bound N := ⟨_, Nat.factorial_pos _, dvd_rfl⟩

/-- the limit: the plans that can be reached, weighted with their numbers of spanning forests -/
noncomputable def treeShare (G : Graph V) (pop : V → ℚ) (target eps : ℚ) (k : ℕ) (Q0 Q : Finset (Finset V)) : ℚ :=
  treeWeight G Q / ∑ X ∈ reachable G pop target eps k Q0, treeWeight G X

theorem self_reachable {Q : Finset (Finset V)} (hQ : IsPlan G pop target eps k Q) : Q ∈ reachable G pop target eps k Q := mem_reachable.2 ⟨hQ, .refl⟩

theorem revKernel_isKernel (hs : RevSetting G pop target eps k bound) {x : PlanState V P} (hx : GoodState G pop target eps k x) :
    IsKernel (reachable G pop target eps k x.plan.plan) (revKernel bound G pop target eps k) := by
  obtain ⟨N, hN⟩ := exists_fairTape G bound
  constructor
  · intro Q hQ Q' _
    by_cases he : Q = Q'
    · subst he
      obtain ⟨y, hy, rfl⟩ := reaches_state hs hN hx (mem_reachable.1 hQ).2
      exact (revKernel_self_pos hs hN hy).le
    · unfold revKernel
      rw [if_neg he]
      exact exchangeProb_nonneg _ _
  · intro Q hQ
    have hsub : reachable G pop target eps k x.plan.plan ⊆ plans G pop target eps k := fun Q hQ => mem_plans.2 (mem_reachable.1 hQ).1
    rw [Finset.sum_subset hsub (fun Q' h1 h2 => revKernel_outside hQ (mem_plans.1 h1) h2), ← Finset.add_sum_erase _ _ (hsub hQ)]
    rw [Finset.sum_congr rfl (fun X hX => show revKernel bound G pop target eps k Q X = exchangeProb bound G Q X by
      unfold revKernel
      rw [if_neg (Finset.ne_of_mem_erase hX).symm])]
    unfold revKernel
    rw [if_pos rfl]
    ring

theorem treeShare_invariant (hs : RevSetting G pop target eps k bound) {x : PlanState V P} (hx : GoodState G pop target eps k x) :
    Invariant (reachable G pop target eps k x.plan.plan) (revKernel bound G pop target eps k) (treeShare G pop target eps k x.plan.plan) := by
  obtain ⟨N, hN⟩ := exists_fairTape G bound
  have hpos : 0 < ∑ X ∈ reachable G pop target eps k x.plan.plan, treeWeight G X :=
    Finset.sum_pos (fun Q hQ => treeWeight_pos hs.wf (mem_reachable.1 hQ).1) ⟨_, self_reachable hx.2⟩
  refine .of_balance (revKernel_isKernel hs hx) (fun Q hQ => ?_) ?_ (fun Q hQ Q' hQ' => ?_)
  · exact div_nonneg (treeWeight_pos hs.wf (mem_reachable.1 hQ).1).le hpos.le
  · unfold treeShare
    rw [← Finset.sum_div, div_self hpos.ne']
  · by_cases he : Q = Q'
    · rw [he]
    obtain ⟨y, hy, rfl⟩ := reaches_state hs hN hx (mem_reachable.1 hQ).2
    obtain ⟨z, hz, rfl⟩ := reaches_state hs hN hx (mem_reachable.1 hQ').2
    obtain ⟨c1, d1⟩ := labelled hy.1 hy.2
    obtain ⟨c2, d2⟩ := labelled hz.1 hz.2
    have := C56_detailed_balance G hs.wf pop target eps bound hs.bound y.plan z.plan hy.1 hz.1 c1 c2 d1 d2 (fun X hX => (hy.2.2.2 X hX).2)
      (fun X hX => (hz.2.2.2 X hX).2) he 1 Nat.one_pos N hN.1 hN.2 (6 + 2 * G.nodes.card) le_rfl
    rw [transition_eq hs hN Nat.one_pos hy.1 hy.2 (mem_plans.2 hz.2) _ le_rfl, transition_eq hs hN Nat.one_pos hz.1 hz.2 (mem_plans.2 hy.2) _ le_rfl] at this
    unfold treeShare treeWeight
    rw [div_mul_eq_mul_div, div_mul_eq_mul_div, mul_comm, this, mul_comm]

/-- the chain forgets where it started, among the plans that can be reached -/
theorem revKernel_forgets (hs : RevSetting G pop target eps k bound) {x : PlanState V P} (hx : GoodState G pop target eps k x) :
    ∃ m δ, 0 < δ ∧ Forgets (reachable G pop target eps k x.plan.plan) (revKernel bound G pop target eps k) (treeShare G pop target eps k x.plan.plan) m δ := by
  obtain ⟨N, hN⟩ := exists_fairTape G bound
  refine exists_forgets (revKernel_isKernel hs hx) (fun Q hQ => ?_) (treeShare_invariant hs hx) (fun Q hQ Q' hQ' => ?_)
  · obtain ⟨y, hy, rfl⟩ := reaches_state hs hN hx (mem_reachable.1 hQ).2
    exact revKernel_self_pos hs hN hy
  · have h1 : ExReach G pop target eps k Q Q' := ((mem_reachable.1 hQ).2.symm hx.2).trans (mem_reachable.1 hQ').2
    have h2 : Relation.ReflTransGen (fun u v => u ∈ reachable G pop target eps k x.plan.plan ∧ v ∈ reachable G pop target eps k x.plan.plan ∧
        0 < revKernel bound G pop target eps k u v) Q Q' ∧ Q' ∈ reachable G pop target eps k x.plan.plan := by
      clear hQ'
      induction h1 with
      | refl => exact ⟨.refl, hQ⟩
      | @tail Q1 Q2 _ h ih =>
        have hm : Q2 ∈ reachable G pop target eps k x.plan.plan := mem_reachable.2 ⟨h.2, (mem_reachable.1 ih.2).2.tail h⟩
        refine ⟨ih.1.tail ⟨ih.2, hm, ?_⟩, hm⟩
        unfold revKernel
        rw [if_neg h.1.ne]
        exact exchangeProb_pos hs (mem_reachable.1 ih.2).1 h.2 h.1
    exact h2.1

/-- the mean of a function of the list of the plans -/
theorem revChain_mean (hs : RevSetting G pop target eps k bound) (hN : FairTape G bound N) (hf : 0 < fuel) {cs : List (Constraint Tape (PlanState V P))}
    (hcs : Harmless G pop target eps k cs) (ha : a.Coherent) (hp : IsPlan G pop target eps k a.plan) (n : ℕ) (ch : Chain Tape (PlanState V P))
    (hch : ch.isValid = cs) (f body : ℕ) (hf' : 0 < f) (hbody : n + 1 < body) (F : List (Finset (Finset V)) → ℚ) (L : ℕ)
    (hL : n * (6 + 2 * G.nodes.card) ≤ L) :
    avg N L (fun t => listValue (fun x => x.plan.plan) F (ch.list (revChain N bound fuel G pop target eps a n) f body t)) =
      pathMean (reachable G pop target eps k a.plan) (revKernel bound G pop target eps k) n (fun l => F (a.plan :: l)) a.plan := by
  rw [(revChain_law (a := a) hs hN hf hcs n).list hN.1 n rfl (show GoodState G pop target eps k ⟨a, none⟩ from ⟨ha, hp⟩) ch hch f body hf' hbody F L hL]
  have hsub : reachable G pop target eps k a.plan ⊆ plans G pop target eps k := fun Q hQ => mem_plans.2 (mem_reachable.1 hQ).1
  exact pathMean_sub hsub (fun Q hQ Q' h1 h2 => revKernel_outside hQ (mem_plans.1 h1) h2) n _ a.plan (self_reachable hp)

end steps

/-! ### The theorems -/

section theorems
variable (G : Graph V) (pop : V → ℚ) (target eps : ℚ) (k bound : ℕ)

/-- **C103** (the run) The plans in `list(chain)` are a path of a Markov chain: a list of plans that begins with the initial one is seen with the product
of the probabilities of its moves.  Nothing else, for instance the labels of the districts or what happened before, has an influence. -/
theorem C103_run (hs : RevSetting G pop target eps k bound) (N : ℕ) (hN : FairTape G bound N) (fuel : ℕ) (hf : 0 < fuel)
    (cs : List (Constraint Tape (PlanState V P))) (hcs : Harmless G pop target eps k cs) (a : Assignment V P) (ha : a.Coherent)
    (hp : IsPlan G pop target eps k a.plan) (ch : Chain Tape (PlanState V P)) (hch : ch.isValid = cs) (f : ℕ) (hf' : 0 < f)
    (p : List (Finset (Finset V))) (hpl : ∀ Q ∈ p, IsPlan G pop target eps k Q) (body : ℕ) (hbody : p.length + 1 < body) (L : ℕ)
    (hL : p.length * (6 + 2 * G.nodes.card) ≤ L) :
    avg N L (fun t => listValue (fun x => x.plan.plan) (fun l => if l = a.plan :: p then 1 else 0)
      (ch.list (revChain N bound fuel G pop target eps a p.length) f body t)) = pathProb (revKernel bound G pop target eps k) a.plan p := by
  rw [(revChain_law (a := a) hs hN hf hcs p.length).list hN.1 p.length rfl (show GoodState G pop target eps k ⟨a, none⟩ from ⟨ha, hp⟩) ch hch f body hf' hbody _ L hL]
  rw [← pathMean_path (S := plans G pop target eps k) p (fun Q hQ => mem_plans.2 (hpl Q hQ))]
  exact pathMean_congr _ (fun l _ => by simp [revChain, flipChain]) _

/-- **C103** (limit) However the districts of the initial plan are labelled: the probability that the last plan of a run of `n` moves is `Q` converges
geometrically to the share of `Q` in the numbers of spanning forests of the plans that can be reached from the initial one by changing two districts at a time.
The rate does not depend on `n`, on the labels or on the generator. -/
theorem C103_limit (hs : RevSetting G pop target eps k bound) (a : Assignment V P) (ha : a.Coherent) (hp : IsPlan G pop target eps k a.plan) :
    ∃ m δ, 0 < m ∧ 0 < δ ∧ δ ≤ 1 ∧ ∀ (N : ℕ), FairTape G bound N → ∀ fuel, 0 < fuel →
      ∀ (cs : List (Constraint Tape (PlanState V P))), Harmless G pop target eps k cs →
      ∀ b : Assignment V P, b.Coherent → b.plan ∈ reachable G pop target eps k a.plan →
      ∀ ch : Chain Tape (PlanState V P), ch.isValid = cs → ∀ n f body L, 0 < f → n + 1 < body → n * (6 + 2 * G.nodes.card) ≤ L →
      ∀ Q ∈ reachable G pop target eps k a.plan,
        |avg N L (fun t => listValue (fun x => x.plan.plan) (fun l => if l.getLast? = some Q then 1 else 0)
            (ch.list (revChain N bound fuel G pop target eps b n) f body t)) -
          treeWeight G Q / ∑ X ∈ reachable G pop target eps k a.plan, treeWeight G X| ≤ (1 - δ) ^ (n / m) := by
  have hx : GoodState G pop target eps k (⟨a, none⟩ : PlanState V P) := ⟨ha, hp⟩
  obtain ⟨m, δ, hδ, hfor⟩ := revKernel_forgets hs hx
  have hK := revKernel_isKernel hs hx
  have hπ := treeShare_invariant hs hx
  refine ⟨m, δ, hfor.pos, hδ, hfor.le_one, ?_⟩
  intro N hN fuel hf cs hcs b hb hba ch hch n f body L hf' hbody hL Q hQ
  obtain ⟨hbp, hbr⟩ := mem_reachable.1 hba
  rw [revChain_mean hs hN hf hcs hb hbp n ch hch f body hf' hbody _ L hL, reachable_eq hp hbr]
  have e : ∀ l : List (Finset (Finset V)), (if (b.plan :: l).getLast? = some Q then (1 : ℚ) else 0) = atState Q (l.getLast?.getD b.plan) := by
    intro l
    unfold atState
    rw [List.getLast?_cons]
    simp
  rw [pathMean_congr n (fun l _ => e l), pathMean_last]
  have hmean : ∑ y ∈ reachable G pop target eps k a.plan, treeShare G pop target eps k a.plan y * atState Q y = treeShare G pop target eps k a.plan Q := by
    rw [Finset.sum_eq_single_of_mem Q hQ]
    · rw [atState_self, mul_one]
    · intro y _ hy
      simp [atState, hy]
  have := hfor.converges hK hπ (f := atState Q) (B := 1) (fun y hy => by
    rw [hmean, abs_le]
    have h1 := hπ.nonneg Q hQ
    have h2 := hπ.le_one Q hQ
    have h3 := atState_nonneg Q y
    have h4 : atState Q y ≤ 1 := by unfold atState; split_ifs <;> norm_num
    constructor <;> linarith) n b.plan hba
  rw [hmean, mul_one] at this
  exact this

/-- **C103** (ensemble averages) For every score of a plan, for example the number of its cut edges: the probability that the average of the score over the
run differs by `ε` or more from its mean over the plans that can be reached, weighted with their numbers of spanning forests, is at most `C / (n ε²)`, with a
constant that depends on the graph and on the range of the score only. -/
theorem C103_ensemble (hs : RevSetting G pop target eps k bound) (a : Assignment V P) (ha : a.Coherent) (hp : IsPlan G pop target eps k a.plan)
    (score : Finset (Finset V) → ℚ) :
    ∃ C, ∀ (N : ℕ), FairTape G bound N → ∀ fuel, 0 < fuel → ∀ (cs : List (Constraint Tape (PlanState V P))), Harmless G pop target eps k cs →
      ∀ b : Assignment V P, b.Coherent → b.plan ∈ reachable G pop target eps k a.plan →
      ∀ ch : Chain Tape (PlanState V P), ch.isValid = cs → ∀ n f body L, 0 < f → n + 1 < body → n * (6 + 2 * G.nodes.card) ≤ L → ∀ ε, 0 < ε →
        avg N L (fun t => listValue (fun x => x.plan.plan) (fun l =>
            if ε ≤ |(l.map score).sum / l.length - (∑ Q ∈ reachable G pop target eps k a.plan, treeWeight G Q * score Q) /
              ∑ Q ∈ reachable G pop target eps k a.plan, treeWeight G Q| then 1 else 0)
          (ch.list (revChain N bound fuel G pop target eps b n) f body t)) ≤ C / ((n + 1 : ℕ) * ε ^ 2) := by
  have hx : GoodState G pop target eps k (⟨a, none⟩ : PlanState V P) := ⟨ha, hp⟩
  obtain ⟨m, δ, hδ, hfor⟩ := revKernel_forgets hs hx
  have hK := revKernel_isKernel hs hx
  have hπ := treeShare_invariant hs hx
  have hmean : (∑ Q ∈ reachable G pop target eps k a.plan, treeWeight G Q * score Q) / ∑ Q ∈ reachable G pop target eps k a.plan, treeWeight G Q =
      ∑ Q ∈ reachable G pop target eps k a.plan, treeShare G pop target eps k a.plan Q * score Q := by
    rw [Finset.sum_div]
    exact Finset.sum_congr rfl (fun Q _ => by unfold treeShare; ring)
  rw [hmean]
  set μ := ∑ Q ∈ reachable G pop target eps k a.plan, treeShare G pop target eps k a.plan Q * score Q with hμ
  set B := ∑ Q ∈ reachable G pop target eps k a.plan, |score Q - μ| with hB
  refine ⟨B ^ 2 * (1 + 2 * m / δ), ?_⟩
  intro N hN fuel hf cs hcs b hb hba ch hch n f body L hf' hbody hL ε hε
  obtain ⟨hbp, hbr⟩ := mem_reachable.1 hba
  rw [revChain_mean hs hN hf hcs hb hbp n ch hch f body hf' hbody _ L hL, reachable_eq hp hbr]
  exact hfor.large_numbers hδ hK hπ (f := score) (B := B)
    (fun Q hQ => Finset.single_le_sum (f := fun Q => |score Q - μ|) (fun Q _ => abs_nonneg _) hQ) n ε hε b.plan hba

/-- **C103** (support) A run never leaves the plans that can be reached by changing two districts at a time. -/
theorem C103_never_leaves (hs : RevSetting G pop target eps k bound) (N : ℕ) (hN : FairTape G bound N) (fuel : ℕ) (hf : 0 < fuel)
    (cs : List (Constraint Tape (PlanState V P))) (hcs : Harmless G pop target eps k cs) (a : Assignment V P) (ha : a.Coherent)
    (hp : IsPlan G pop target eps k a.plan) (ch : Chain Tape (PlanState V P)) (hch : ch.isValid = cs) (n f body L : ℕ) (hf' : 0 < f) (hbody : n + 1 < body)
    (hL : n * (6 + 2 * G.nodes.card) ≤ L) :
    avg N L (fun t => listValue (fun x => x.plan.plan) (fun l => if ∀ Q ∈ l, Q ∈ reachable G pop target eps k a.plan then 1 else 0)
      (ch.list (revChain N bound fuel G pop target eps a n) f body t)) = 1 := by
  have hx : GoodState G pop target eps k (⟨a, none⟩ : PlanState V P) := ⟨ha, hp⟩
  have hK := revKernel_isKernel hs hx
  rw [revChain_mean hs hN hf hcs ha hp n ch hch f body hf' hbody _ L hL]
  have hself := self_reachable hp
  refine le_antisymm ?_ ?_
  · calc _ ≤ pathMean (reachable G pop target eps k a.plan) (revKernel bound G pop target eps k) n (fun _ => 1) a.plan :=
        pathMean_mono hK n (fun l _ _ => by split_ifs <;> norm_num) _ hself
      _ = 1 := pathMean_const hK 1 n _ hself
  · calc 1 = pathMean (reachable G pop target eps k a.plan) (revKernel bound G pop target eps k) n (fun _ => 1) a.plan := (pathMean_const hK 1 n _ hself).symm
      _ ≤ _ := pathMean_mono hK n (fun l _ h => by
        rw [if_pos]
        intro Q hQ
        rcases List.mem_cons.1 hQ with rfl | hQ
        · exact hself
        · exact h Q hQ) _ hself

end theorems

/-! ### How often a move changes nothing -/

theorem list_sum_ge {α : Type} (l : List α) (g : α → ℚ) (p : α → Prop) [DecidablePred p] (h0 : ∀ x ∈ l, 0 ≤ g x) (h1 : ∀ x ∈ l, p x → g x = 1) :
    ((l.filter p).length : ℚ) ≤ (l.map g).sum := by
  induction l with
  | nil => simp
  | cons x l ih =>
    have hl := ih (fun y hy => h0 y (List.mem_cons_of_mem _ hy)) (fun y hy => h1 y (List.mem_cons_of_mem _ hy))
    rw [List.map_cons, List.sum_cons]
    by_cases hx : p x
    · rw [List.filter_cons_of_pos (by simpa using hx), List.length_cons, h1 x (List.mem_cons_self ..) hx]
      push_cast
      linarith
    · rw [List.filter_cons_of_neg (by simpa using hx)]
      have := h0 x (List.mem_cons_self ..)
      linarith

theorem diagonal_pairs {a : Assignment V P} (ha : a.Coherent) : ((allPairs a).filter (fun x => x.1 = x.2)).length = a.parts.keys.length := by
  rw [← List.toFinset_card_of_nodup ((nodup_allPairs ha).filter _), ← List.toFinset_card_of_nodup ha.parts_wf]
  symm
  refine Finset.card_bij (fun p _ => (p, p)) ?_ ?_ ?_
  · intro p hp
    rw [List.mem_toFinset] at hp
    rw [List.mem_toFinset, List.mem_filter, mem_allPairs]
    exact ⟨⟨hp, hp⟩, by simp⟩
  · intro p _ q _ h
    exact (Prod.mk.inj h).1
  · intro x hx
    rw [List.mem_toFinset, List.mem_filter, mem_allPairs] at hx
    obtain ⟨⟨h1, -⟩, h2⟩ := hx
    have h2 : x.1 = x.2 := by simpa using h2
    exact ⟨x.1, List.mem_toFinset.2 h1, Prod.ext rfl h2⟩

/-- **C103** (wasted moves) Since the pair of districts is drawn with replacement, at least one of `k` moves on average changes nothing. -/
theorem C103_stays (G : Graph V) (pop : V → ℚ) (target eps : ℚ) (k bound : ℕ) (hs : RevSetting G pop target eps k bound) (N : ℕ) (hN : FairTape G bound N)
    (fuel : ℕ) (hf : 0 < fuel) (a : Assignment V P) (ha : a.Coherent) (hp : IsPlan G pop target eps k a.plan) (L : ℕ) (hL : 6 + 2 * G.nodes.card ≤ L) :
    1 / (k : ℚ) ≤ transition N L bound fuel G pop target eps a a.plan := by
  obtain ⟨hcov, hc⟩ := labelled ha hp
  obtain ⟨f, rfl⟩ : ∃ f, fuel = f + 1 := ⟨fuel - 1, by omega⟩
  obtain ⟨L, rfl⟩ : ∃ l, L = l + 1 := ⟨L - 1, by omega⟩
  have hkk : a.parts.keys.length = k := by rw [← card_plan ha hc, hp.2.1]
  have hk0 : (0 : ℚ) < k := by exact_mod_cast hs.kpos
  have hne : allPairs a ≠ [] := by
    intro e
    have := length_allPairs a
    rw [e, hkk, List.length_nil] at this
    have h1 := pow_pos hs.kpos 2
    omega
  have hle : k ≤ G.nodes.card := by
    rw [← hp.2.1]
    have hsub : G.nodes = a.plan.biUnion id := by
      ext v
      rw [hp.1.cover v, Finset.mem_biUnion]
      rfl
    rw [hsub]
    refine Finset.card_le_card_biUnion (fun X hX Y hY hXY => ?_) (fun X hX => hp.1.nonempty X hX)
    exact Finset.disjoint_left.2 (fun v h1 h2 => hXY (hp.1.disj X hX Y hY v h1 h2))
  have hdvd : (allPairs a).length ∣ N := by
    rw [length_allPairs, hkk]
    exact (Nat.dvd_factorial (pow_pos hs.kpos 2) ((Nat.pow_le_pow_left hle 2).trans ((Nat.le_add_right _ _).trans (Nat.le_add_right _ _)))).trans hN.2
  unfold transition prob revMove
  rw [revFlips_eq, avg_choice hN.1 L (allPairs a) hne hdvd _ (fun r => if landsOn a a.plan r = true then (1 : ℚ) else 0), length_allPairs, hkk]
  have hsum := list_sum_ge (allPairs a) (fun pair => avg N L (fun t => if landsOn a a.plan
    (revPair (uniRand N) (uniformSpan N) (memoBalance (uniRand N) false) bound G a pop target eps pair t).1 = true then (1 : ℚ) else 0)) (fun x => x.1 = x.2)
    (fun pair _ => by
      unfold avg
      refine div_nonneg (Finset.sum_nonneg (fun t _ => ?_)) (by positivity)
      beta_reduce
      split_ifs <;> norm_num)
    (fun pair _ he => by
      refine (avg_congr N L (fun t => ?_)).trans (avg_const hN.1 L 1)
      have e : revPair (uniRand N) (uniformSpan N) (memoBalance (uniRand N) false) bound G a pop target eps pair t = (.ok none, t) := by
        unfold revPair
        rw [if_pos (.inl he)]
        rfl
      rw [e]
      exact if_pos (decide_eq_true rfl))
  rw [diagonal_pairs ha, hkk] at hsum
  rw [Nat.cast_pow, div_le_div_iff₀ hk0 (pow_pos hk0 2)]
  nlinarith

/-! ### Two districts -/

section two
variable {G : Graph V} {pop : V → ℚ} {target eps : ℚ} {bound : ℕ}

/-- two plans with two districts have no district in common -/
theorem two_sdiff {Q Q' : Finset (Finset V)} (hQ : IsPlan G pop target eps 2 Q) (hQ' : IsPlan G pop target eps 2 Q') (hne : Q ≠ Q') : Q \ Q' = Q := by
  refine Finset.sdiff_eq_self_of_disjoint (Finset.disjoint_left.2 (fun X hX hX' => hne ?_))
  have half : ∀ {Q Q' : Finset (Finset V)}, IsPlan G pop target eps 2 Q → IsPlan G pop target eps 2 Q' → X ∈ Q → X ∈ Q' → Q ⊆ Q' := by
    intro Q Q' hQ hQ' hX hX' Y hY
    by_cases hYX : Y = X
    · rw [hYX]; exact hX'
    obtain ⟨y, hy⟩ := hQ.1.nonempty Y hY
    obtain ⟨Z, hZ, hyZ⟩ := (hQ'.1.cover y).1 (hQ.sub hY hy)
    have hZX : Z ≠ X := by
      rintro rfl
      exact hYX (hQ.1.disj Y hY Z hX y hy hyZ)
    have pair : ∀ {Q : Finset (Finset V)} {Y : Finset V}, IsPlan G pop target eps 2 Q → X ∈ Q → Y ∈ Q → Y ≠ X → ∀ v, v ∈ Y ↔ v ∈ G.nodes ∧ v ∉ X := by
      intro Q Y hQ hX hY hYX v
      constructor
      · intro hv
        exact ⟨hQ.sub hY hv, fun hvX => hYX (hQ.1.disj Y hY X hX v hv hvX)⟩
      · rintro ⟨hv, hvX⟩
        obtain ⟨W, hW, hvW⟩ := (hQ.1.cover v).1 hv
        have hQeq : ({X, Y} : Finset (Finset V)) = Q :=
          Finset.eq_of_subset_of_card_le (by intro Z hZ; rcases Finset.mem_insert.1 hZ with rfl | hZ; exacts [hX, Finset.mem_singleton.1 hZ ▸ hY])
            (by rw [hQ.2.1, Finset.card_pair hYX.symm])
        rw [← hQeq, Finset.mem_insert, Finset.mem_singleton] at hW
        rcases hW with rfl | rfl
        · exact absurd hvW hvX
        · exact hvW
    have : Y = Z := by
      ext v
      rw [pair hQ hX hY hYX v, pair hQ' hX' hZ hZX v]
    rw [this]
    exact hZ
  exact Finset.Subset.antisymm (half hQ hQ' hX hX') (half hQ' hQ hX' hX)

theorem two_exchange {Q Q' : Finset (Finset V)} (hQ : IsPlan G pop target eps 2 Q) (hQ' : IsPlan G pop target eps 2 Q') (hne : Q ≠ Q') : Exchange Q Q' := by
  unfold Exchange
  rw [two_sdiff hQ hQ' hne, two_sdiff hQ' hQ hne.symm]
  exact ⟨hQ.2.1, hQ'.2.1⟩

/-- with two districts all plans can be reached -/
theorem two_reachable {Q : Finset (Finset V)} (hQ : IsPlan G pop target eps 2 Q) : reachable G pop target eps 2 Q = plans G pop target eps 2 := by
  ext Q'
  rw [mem_reachable, mem_plans]
  refine ⟨fun h => h.1, fun h => ⟨h, ?_⟩⟩
  by_cases hne : Q = Q'
  · rw [← hne]
    exact .refl
  · exact .single ⟨two_exchange hQ h hne, h⟩

/-- the probability of starting anew in one move -/
noncomputable def renewal (G : Graph V) (pop : V → ℚ) (target eps : ℚ) (bound : ℕ) : ℚ :=
  (∑ Q ∈ plans G pop target eps 2, treeWeight G Q) / (2 * bound * numTrees G G.nodes)

theorem two_kernel (hG : G.WF) {Q Q' : Finset (Finset V)} (hQ : Q ∈ plans G pop target eps 2) (hQ' : Q' ∈ plans G pop target eps 2) :
    revKernel bound G pop target eps 2 Q Q' = (1 - renewal G pop target eps bound) * (if Q = Q' then 1 else 0) +
      renewal G pop target eps bound * treeShare G pop target eps 2 Q Q' := by
  have hpos : 0 < ∑ X ∈ plans G pop target eps 2, treeWeight G X :=
    Finset.sum_pos (fun Q hQ => treeWeight_pos hG (mem_plans.1 hQ)) ⟨_, hQ⟩
  have hoff : ∀ X ∈ plans G pop target eps 2, Q ≠ X → exchangeProb bound G Q X = renewal G pop target eps bound * treeShare G pop target eps 2 Q X := by
    intro X hX hne
    unfold exchangeProb renewal treeShare
    have hq := mem_plans.1 hQ
    have hx := mem_plans.1 hX
    rw [if_pos (two_exchange hq hx hne), two_sdiff hq hx hne, two_sdiff hx hq hne.symm, hq.2.1, two_reachable hq]
    have hU : Q.biUnion id = G.nodes := by
      ext v
      rw [hq.1.cover v, Finset.mem_biUnion]
      rfl
    rw [hU, div_mul_div_comm, mul_comm (2 * (bound : ℚ) * _), mul_div_mul_left _ _ hpos.ne']
    show 2 * treeWeight G X / _ = _
    have e : ((2 : ℕ) : ℚ) ^ 2 * (bound * (numTrees G G.nodes : ℚ)) = 2 * (2 * bound * (numTrees G G.nodes : ℚ)) := by push_cast; ring
    rw [e, mul_div_mul_left _ _ two_ne_zero]
  unfold revKernel
  by_cases he : Q = Q'
  · rw [if_pos he, if_pos he, mul_one, ← he, Finset.sum_congr rfl (fun X hX => hoff X (Finset.mem_of_mem_erase hX) (Finset.ne_of_mem_erase hX).symm), ← Finset.mul_sum]
    have hone : ∑ X ∈ plans G pop target eps 2, treeShare G pop target eps 2 Q X = 1 := by
      unfold treeShare
      rw [← Finset.sum_div, two_reachable (mem_plans.1 hQ), div_self hpos.ne']
    rw [← Finset.add_sum_erase _ _ hQ] at hone
    linear_combination (- renewal G pop target eps bound) * hone
  · rw [if_neg he, if_neg he, mul_zero, zero_add, hoff Q' hQ' he]

end two

/-- **C103** (two districts) With two districts the law of the last plan of a run of `n` moves is known exactly: with probability `(1 - δ)ⁿ` it is still the
initial plan, otherwise it is drawn from the spanning-tree distribution.  Here `δ` is the sum of the products of the numbers of spanning trees of the two
districts over all plans, divided by twice the bound `M` times the number of spanning trees of the graph. -/
theorem C103_two_districts (G : Graph V) (pop : V → ℚ) (target eps : ℚ) (bound : ℕ) (hs : RevSetting G pop target eps 2 bound)
    (N : ℕ) (hN : FairTape G bound N) (fuel : ℕ) (hf : 0 < fuel) (cs : List (Constraint Tape (PlanState V P))) (hcs : Harmless G pop target eps 2 cs)
    (a : Assignment V P) (ha : a.Coherent) (hp : IsPlan G pop target eps 2 a.plan) (ch : Chain Tape (PlanState V P)) (hch : ch.isValid = cs)
    (n f body L : ℕ) (hf' : 0 < f) (hbody : n + 1 < body) (hL : n * (6 + 2 * G.nodes.card) ≤ L) (Q : Finset (Finset V)) (hQ : IsPlan G pop target eps 2 Q) :
    avg N L (fun t => listValue (fun x => x.plan.plan) (fun l => if l.getLast? = some Q then 1 else 0)
        (ch.list (revChain N bound fuel G pop target eps a n) f body t)) =
      (1 - renewal G pop target eps bound) ^ n * (if a.plan = Q then 1 else 0) +
        (1 - (1 - renewal G pop target eps bound) ^ n) * (treeWeight G Q / ∑ X ∈ plans G pop target eps 2, treeWeight G X) := by
  have hx : GoodState G pop target eps 2 (⟨a, none⟩ : PlanState V P) := ⟨ha, hp⟩
  have hπ := treeShare_invariant hs hx
  rw [revChain_mean hs hN hf hcs ha hp n ch hch f body hf' hbody _ L hL]
  have e : ∀ l : List (Finset (Finset V)), (if (a.plan :: l).getLast? = some Q then (1 : ℚ) else 0) = atState Q (l.getLast?.getD a.plan) := by
    intro l
    unfold atState
    rw [List.getLast?_cons]
    simp
  rw [pathMean_congr n (fun l _ => e l), pathMean_last]
  have hmem := self_reachable hp
  have hkernel : ∀ x ∈ reachable G pop target eps 2 a.plan, ∀ y ∈ reachable G pop target eps 2 a.plan, revKernel bound G pop target eps 2 x y =
      (1 - renewal G pop target eps bound) * (if x = y then 1 else 0) + renewal G pop target eps bound * treeShare G pop target eps 2 a.plan y := by
    intro x hx' y hy
    obtain ⟨h1, h2⟩ := mem_reachable.1 hx'
    rw [two_kernel hs.wf (mem_plans.2 h1) (mem_plans.2 (mem_reachable.1 hy).1)]
    unfold treeShare
    rw [two_reachable h1, two_reachable hp]
  rw [after_renewal hπ.sum hkernel _ n _ hmem]
  have hQm : Q ∈ reachable G pop target eps 2 a.plan := by rw [two_reachable hp]; exact mem_plans.2 hQ
  rw [Finset.sum_eq_single_of_mem Q hQm]
  · rw [atState_self, mul_one]
    unfold treeShare atState
    rw [two_reachable hp]
    congr 2
    congr
  · intro y _ hy
    simp [atState, hy]

/-- **C103** (two districts, the rate) If there are two plans at all, the probability `δ` of starting anew is positive and at most 1. -/
theorem C103_rate (G : Graph V) (pop : V → ℚ) (target eps : ℚ) (bound : ℕ) (hs : RevSetting G pop target eps 2 bound) (a b : Assignment V P) (ha : a.Coherent)
    (hb : b.Coherent) (hp : IsPlan G pop target eps 2 a.plan) (hq : IsPlan G pop target eps 2 b.plan) (hne : a.plan ≠ b.plan) :
    0 < renewal G pop target eps bound ∧ renewal G pop target eps bound ≤ 1 := by
  obtain ⟨N, hN⟩ := exists_fairTape G bound
  have hpos : 0 < ∑ X ∈ plans G pop target eps 2, treeWeight G X :=
    Finset.sum_pos (fun Q hQ => treeWeight_pos hs.wf (mem_plans.1 hQ)) ⟨_, mem_plans.2 hp⟩
  have hδ : 0 < renewal G pop target eps bound := by
    have h1 := exchangeProb_pos hs hp hq (two_exchange hp hq hne)
    have h2 := two_kernel (bound := bound) hs.wf (mem_plans.2 hp) (mem_plans.2 hq)
    rw [revKernel, if_neg hne, if_neg hne, mul_zero, zero_add] at h2
    rw [h2] at h1
    have h3 : 0 ≤ treeShare G pop target eps 2 a.plan b.plan := by
      unfold treeShare
      rw [two_reachable hp]
      exact div_nonneg (treeWeight_pos hs.wf hq).le hpos.le
    by_contra hc
    have := mul_nonpos_of_nonpos_of_nonneg (not_lt.1 hc) h3
    linarith
  refine ⟨hδ, ?_⟩
  have key : ∀ c : Assignment V P, c.Coherent → IsPlan G pop target eps 2 c.plan →
      1 / 2 ≤ 1 - renewal G pop target eps bound * (1 - treeWeight G c.plan / ∑ X ∈ plans G pop target eps 2, treeWeight G X) := by
    intro c hc hcp
    have h1 := C103_stays G pop target eps 2 bound hs N hN 1 Nat.one_pos c hc hcp _ le_rfl
    rw [transition_eq hs hN Nat.one_pos hc hcp (mem_plans.2 hcp) _ le_rfl, two_kernel hs.wf (mem_plans.2 hcp) (mem_plans.2 hcp), if_pos rfl] at h1
    unfold treeShare at h1
    rw [two_reachable hcp] at h1
    push_cast at h1
    linarith
  have h1 := key a ha hp
  have h2 := key b hb hq
  have h3 : treeWeight G a.plan / (∑ X ∈ plans G pop target eps 2, treeWeight G X) + treeWeight G b.plan / (∑ X ∈ plans G pop target eps 2, treeWeight G X) ≤ 1 := by
    rw [← add_div, div_le_one hpos, ← Finset.sum_pair hne]
    refine Finset.sum_le_sum_of_subset_of_nonneg ?_ (fun Q hQ _ => (treeWeight_pos hs.wf (mem_plans.1 hQ)).le)
    intro Q hQ
    rcases Finset.mem_insert.1 hQ with rfl | hQ
    · exact mem_plans.2 hp
    · rw [Finset.mem_singleton.1 hQ]
      exact mem_plans.2 hq
  have h4 := mul_le_mul_of_nonneg_left h3 hδ.le
  linarith

/-! ### Concrete cases: the square and the ring of six nodes -/

theorem setting_of_pairs {G : Graph V} (hG : G.WF) (k : ℕ) (hk : 0 < k) (bound : ℕ) (hb : G.nodes.card ≤ bound + 1) (hb0 : 0 < bound) :
    RevSetting G (fun _ => 1) 2 0 k bound where
  wf := hG
  kpos := hk
  bpos := hb0
  bound := by
    intro U hU E hE
    have h1 := ((mem_treeSets hU).1 hE).2.card
    have h2 : (balancedEdges U E (fun _ => 1) 2 0).card ≤ E.card := by
      classical
      exact Finset.card_le_card (Finset.filter_subset _ _)
    have h3 : U.card ≤ G.nodes.card := Finset.card_le_card hU
    simp only at h1
    omega
  room := by
    intro Q hQ s hs t ht hst _
    rw [mem_plans] at hQ
    have hsize : ∀ X ∈ Q, X.card = 2 := by
      intro X hX
      have := (hQ.2.2 X hX).2
      unfold Near popOf at this
      rw [zero_mul, abs_nonpos_iff, sub_eq_zero, Finset.sum_const, nsmul_eq_mul, mul_one] at this
      exact_mod_cast this
    have hd : Disjoint s t := by
      rw [Finset.disjoint_left]
      exact fun x hx hx' => hst (hQ.1.disj s hs t ht x hx hx')
    rw [Finset.card_union_of_disjoint hd, hsize s hs, hsize t ht]
    norm_num

theorem ring_setting : RevSetting ringGraph (fun _ => 1) 2 0 2 3 := setting_of_pairs ring_positive.1 2 (by norm_num) 3 (by decide) (by norm_num)

theorem ring_fair : FairTape ringGraph 3 (Nat.factorial 44) := by
  refine ⟨Nat.factorial_pos _, ?_⟩
  have : ringGraph.nodes.card ^ 2 + 2 ^ ringGraph.edges.card + 3 * ringGraph.edges.card = 44 := by decide
  rw [this]

/-- the numbers of spanning trees of the square and of the districts -/
theorem ring_trees : numTrees ringGraph ringGraph.nodes = 4 ∧ numTrees ringGraph {0, 1} = 1 ∧ numTrees ringGraph {2, 3} = 1 ∧ numTrees ringGraph {0, 3} = 1 ∧
    numTrees ringGraph {1, 2} = 1 := by
  have key : ∀ (m : ℕ) (nd : Option (Fin m) → Fin 4) (s : Finset (Fin 4)) (n : ℕ), Function.Injective nd → (∀ v, v ∈ (ringGraph.subgraph s).nodes ↔ ∃ o, nd o = v) →
      (laplaceOf (nbrs (ringGraph.subgraph s) nd)).det = n → numTrees ringGraph s = n := by
    intro m nd s n h1 h2 h3
    rw [matrix_tree (ring_positive.1.subgraph s) ⟨h1, h2⟩] at h3
    exact_mod_cast h3
  exact ⟨key 3 (fun o => o.elim 0 ![1, 2, 3]) _ _ (by decide) (by decide) (by decide +kernel),
    key 1 (fun o => o.elim 0 ![1]) _ _ (by decide) (by decide) (by decide +kernel), key 1 (fun o => o.elim 2 ![3]) _ _ (by decide) (by decide) (by decide +kernel),
    key 1 (fun o => o.elim 0 ![3]) _ _ (by decide) (by decide) (by decide +kernel), key 1 (fun o => o.elim 1 ![2]) _ _ (by decide) (by decide) (by decide +kernel)⟩

theorem ring_weights : treeWeight ringGraph ringA.plan = 1 ∧ treeWeight ringGraph ringB.plan = 1 ∧ renewal ringGraph (fun _ => 1) 2 0 3 = 1 / 12 := by
  obtain ⟨h1, h2, h3, h4, h5⟩ := ring_trees
  have eA : ringA.plan = {{0, 1}, {2, 3}} := by decide +kernel
  have eB : ringB.plan = {{0, 3}, {1, 2}} := by decide +kernel
  have hA : treeWeight ringGraph ringA.plan = 1 := by
    unfold treeWeight
    rw [eA, Finset.prod_pair (by decide), h2, h3]
    norm_num
  have hB : treeWeight ringGraph ringB.plan = 1 := by
    unfold treeWeight
    rw [eB, Finset.prod_pair (by decide), h4, h5]
    norm_num
  refine ⟨hA, hB, ?_⟩
  have hpl : plans ringGraph (fun _ => 1) 2 0 2 = {ringA.plan, ringB.plan} := by
    ext Q
    rw [ring_plans, Finset.mem_insert, Finset.mem_singleton]
  unfold renewal
  rw [hpl, Finset.sum_pair ring_positive.2.2.2.1, hA, hB, h1]
  norm_num

/-- the plans of the square: after `n` moves the other plan has the probability `(1 - (11/12)ⁿ) / 2` -/
example (n : ℕ) : avg (Nat.factorial 44) (n * 14) (fun t => listValue (fun x => x.plan.plan) (fun l => if l.getLast? = some ringB.plan then 1 else 0)
    (Chain.list (revChain (Nat.factorial 44) 3 1 ringGraph (fun _ => 1) 2 0 ringA n) 1 (n + 2) ⟨[], none, ⟨ringA, none⟩⟩ t)) = (1 - (11 / 12) ^ n) / 2 := by
  obtain ⟨hA, hB, hr⟩ := ring_weights
  have hp : IsPlan ringGraph (fun _ => 1) 2 0 2 ringA.plan := mem_plans.1 ((ring_plans _).2 (.inl rfl))
  have hq : IsPlan ringGraph (fun _ => 1) 2 0 2 ringB.plan := mem_plans.1 ((ring_plans _).2 (.inr rfl))
  have hpl : plans ringGraph (fun _ => 1) 2 0 2 = {ringA.plan, ringB.plan} := by
    ext Q
    rw [ring_plans, Finset.mem_insert, Finset.mem_singleton]
  rw [C103_two_districts ringGraph (fun _ => 1) 2 0 3 ring_setting _ ring_fair 1 Nat.one_pos [] harmless_nil ringA ring_coherent.1 hp ⟨[], none, ⟨ringA, none⟩⟩ rfl n
    1 (n + 2) (n * 14) Nat.one_pos (by omega) (by rw [show ringGraph.nodes.card = 4 by decide]) ringB.plan hq]
  rw [if_neg ring_positive.2.2.2.1, hpl, Finset.sum_pair ring_positive.2.2.2.1, hA, hB, hr]
  norm_num
  ring

/-- the hypotheses of `C103_run`, `C103_limit`, `C103_ensemble`, `C103_never_leaves`, `C103_stays` and `C103_rate` hold for the square -/
example : RevSetting ringGraph (fun _ => 1) 2 0 2 3 ∧ FairTape ringGraph 3 (Nat.factorial 44) ∧ Harmless (P := Fin 2) ringGraph (fun _ => 1) 2 0 2 [] ∧
    ringA.Coherent ∧ IsPlan ringGraph (fun _ => 1) 2 0 2 ringA.plan ∧ IsPlan ringGraph (fun _ => 1) 2 0 2 ringB.plan ∧ ringA.plan ≠ ringB.plan ∧
    ringB.plan ∈ reachable ringGraph (fun _ => 1) 2 0 2 ringA.plan := by
  have hp : IsPlan ringGraph (fun _ => 1) 2 0 2 ringA.plan := mem_plans.1 ((ring_plans _).2 (.inl rfl))
  have hq : IsPlan ringGraph (fun _ => 1) 2 0 2 ringB.plan := mem_plans.1 ((ring_plans _).2 (.inr rfl))
  exact ⟨ring_setting, ring_fair, harmless_nil, ring_coherent.1, hp, hq, ring_positive.2.2.2.1, by rw [two_reachable hp]; exact mem_plans.2 hq⟩

/-- a ring of six nodes -/
def hexGraph : Graph (Fin 6) := ⟨Finset.univ, {(0, 1), (1, 2), (2, 3), (3, 4), (4, 5), (0, 5)}⟩

/-- districts `{0, 1}`, `{2, 3}` and `{4, 5}` -/
def hexA : Assignment (Fin 6) (Fin 3) :=
  ⟨⟨[(0, {0, 1}), (1, {2, 3}), (2, {4, 5})]⟩, ⟨[(0, 0), (1, 0), (2, 1), (3, 1), (4, 2), (5, 2)]⟩⟩

/-- districts `{1, 2}`, `{3, 4}` and `{0, 5}` -/
def hexOther : Finset (Finset (Fin 6)) := {{1, 2}, {3, 4}, {0, 5}}

theorem hex_wf : hexGraph.WF := by
  constructor <;> decide

theorem hex_coherent : hexA.Coherent := by
  constructor
  · show List.Nodup _; decide
  · show List.Nodup _; decide
  · intro p s h
    fin_cases p <;> cases h <;> decide
  · intro v p h
    fin_cases v <;> cases h <;> decide

theorem hex_connected (X : Finset (Fin 6)) (h : nxIsConnected (hexGraph.subgraph X) = .ok true) : ConnectedOn hexGraph X :=
  (connectedOn_subgraph (Finset.subset_univ X)).1 ((nxIsConnected_true (hex_wf.subgraph X)).1 h)

theorem hex_plan : IsPlan hexGraph (fun _ => 1) 2 0 3 hexA.plan ∧ IsPlan hexGraph (fun _ => 1) 2 0 3 hexOther := by
  have e : hexA.plan = {{0, 1}, {2, 3}, {4, 5}} := by decide +kernel
  rw [e]
  refine ⟨⟨⟨by decide, by decide +kernel, by decide⟩, by decide, fun X hX => ⟨hex_connected X ?_, ?_⟩⟩,
    ⟨⟨by decide, by decide +kernel, by decide⟩, by decide, fun X hX => ⟨hex_connected X ?_, ?_⟩⟩⟩ <;> revert X <;> decide +kernel

/-- from the one plan of the ring of six nodes no other plan can be reached -/
theorem hex_reachable : reachable hexGraph (fun _ => 1) 2 0 3 hexA.plan = {hexA.plan} := by
  have hstep : ∀ Q, IsPlan hexGraph (fun _ => 1) 2 0 3 Q → ¬ Exchange hexA.plan Q := by
    intro Q hQ
    have hdec : ∀ X : Finset (Fin 6), X.card = 2 → nxIsConnected (hexGraph.subgraph X) = .ok true →
        X ∈ ({{0, 1}, {1, 2}, {2, 3}, {3, 4}, {4, 5}, {0, 5}} : Finset (Finset (Fin 6))) := by decide +kernel
    have hsub : Q ∈ ({{0, 1}, {1, 2}, {2, 3}, {3, 4}, {4, 5}, {0, 5}} : Finset (Finset (Fin 6))).powerset := by
      rw [Finset.mem_powerset]
      intro X hX
      obtain ⟨h1, h2⟩ := hQ.2.2 X hX
      refine hdec X ?_ ?_
      · unfold Near popOf at h2
        rw [zero_mul, abs_nonpos_iff, sub_eq_zero, Finset.sum_const, nsmul_eq_mul, mul_one] at h2
        exact_mod_cast h2
      · rw [nxIsConnected_true (hex_wf.subgraph X)]
        exact (connectedOn_subgraph (Finset.subset_univ X)).2 h1
    rw [Finset.mem_powerset] at hsub
    have node : ∀ (x : Fin 6) (X Y : Finset (Fin 6)), X ≠ Y → x ∈ X → x ∈ Y →
        (∀ Z ∈ ({{0, 1}, {1, 2}, {2, 3}, {3, 4}, {4, 5}, {0, 5}} : Finset (Finset (Fin 6))), x ∈ Z → Z = X ∨ Z = Y) → (X ∈ Q ∨ Y ∈ Q) ∧ ¬ (X ∈ Q ∧ Y ∈ Q) := by
      intro x X Y hne hX hY hall
      obtain ⟨Z, hZ, hx⟩ := (hQ.1.cover x).1 (Finset.mem_univ x)
      refine ⟨?_, fun h => hne (hQ.1.disj X h.1 Y h.2 x hX hY)⟩
      rcases hall Z (hsub hZ) hx with rfl | rfl
      · exact .inl hZ
      · exact .inr hZ
    have n1 := node 1 {0, 1} {1, 2} (by decide) (by decide) (by decide) (by decide)
    have n2 := node 2 {1, 2} {2, 3} (by decide) (by decide) (by decide) (by decide)
    have n3 := node 3 {2, 3} {3, 4} (by decide) (by decide) (by decide) (by decide)
    have n4 := node 4 {3, 4} {4, 5} (by decide) (by decide) (by decide) (by decide)
    have e : hexA.plan = {{0, 1}, {2, 3}, {4, 5}} := by decide +kernel
    intro hex
    have hcommon : ({0, 1} : Finset (Fin 6)) ∈ Q ∨ ({2, 3} : Finset (Fin 6)) ∈ Q ∨ ({4, 5} : Finset (Fin 6)) ∈ Q := by
      by_contra hno
      rw [not_or, not_or] at hno
      have : hexA.plan \ Q = hexA.plan := by
        refine Finset.sdiff_eq_self_of_disjoint (Finset.disjoint_left.2 (fun X hX hXQ => ?_))
        rw [e, Finset.mem_insert, Finset.mem_insert, Finset.mem_singleton] at hX
        rcases hX with rfl | rfl | rfl
        · exact hno.1 hXQ
        · exact hno.2.1 hXQ
        · exact hno.2.2 hXQ
      have h1 := hex.1
      rw [this, e] at h1
      exact absurd h1 (by decide)
    have hin : hexA.plan ⊆ Q := by
      rw [e]
      intro X hX
      rw [Finset.mem_insert, Finset.mem_insert, Finset.mem_singleton] at hX
      rcases hX with rfl | rfl | rfl <;> tauto
    have h1 := hex.1
    rw [Finset.sdiff_eq_empty_iff_subset.2 hin, Finset.card_empty] at h1
    exact absurd h1 (by decide)
  ext Q
  rw [mem_reachable, Finset.mem_singleton]
  constructor
  · rintro ⟨-, h⟩
    induction h with
    | refl => rfl
    | tail _ h2 ih =>
      rw [ih] at h2
      exact absurd h2.1 (hstep _ h2.2)
  · rintro rfl
    exact ⟨hex_plan.1, .refl⟩

/-- **C103** (not every plan) On a ring of six nodes with three districts of two nodes there is another plan, but a chain
of any length shows only the one it began with. -/
theorem C103_stuck : IsPlan hexGraph (fun _ => 1) 2 0 3 hexOther ∧ hexOther ≠ hexA.plan ∧ ∀ n, ∀ N, FairTape hexGraph 5 N →
    avg N (n * 18) (fun t => listValue (fun x => x.plan.plan) (fun l => if ∀ Q ∈ l, Q = hexA.plan then 1 else 0)
      (Chain.list (revChain N 5 1 hexGraph (fun _ => 1) 2 0 hexA n) 1 (n + 2) ⟨[], none, ⟨hexA, none⟩⟩ t)) = 1 := by
  refine ⟨hex_plan.2, by decide +kernel, fun n N hN => ?_⟩
  have := C103_never_leaves hexGraph (fun _ => 1) 2 0 3 5 (setting_of_pairs hex_wf 3 (by norm_num) 5 (by decide) (by norm_num)) N hN 1 Nat.one_pos [] harmless_nil
    hexA hex_coherent hex_plan.1 ⟨[], none, ⟨hexA, none⟩⟩ rfl n 1 (n + 2) (n * 18) Nat.one_pos (by omega) (by rw [show hexGraph.nodes.card = 6 by decide])
  rw [hex_reachable] at this
  simpa only [Finset.mem_singleton] using this

/-- there are fair tapes for the ring of six nodes -/
example : ∃ N, FairTape hexGraph 5 N := exists_fairTape hexGraph 5

end GC

import Verif.Props.FlipStationary

/-!
# Chains of `slow_reversible_propose_bi` (C93)
-/

set_option linter.unusedSectionVars false
set_option autoImplicit false

namespace GC

variable {V P : Type} [LinearOrder V] [LinearOrder P]

/-- the districts next to `v` other than its own -/
def otherParts (G : Graph V) (m : V → Option P) (v : V) : Finset (Option P) := ((G.neighbors v).image m).erase (m v)

/-- the nodes with a neighbour in another district -/
def boundaryNodes (G : Graph V) (m : V → Option P) : Finset V := (cutPairs G m).image Prod.fst

/-- every node with a neighbour in another district has one in its own -/
def Anchored (G : Graph V) (m : V → Option P) : Prop := ∀ v ∈ boundaryNodes G m, ∃ w, G.Adj v w ∧ m w = m v

/-- the allowed moves, each with weight one divided by the number of districts to which its node could be moved -/
def biWeight (G : Graph V) (m : V → Option P) (W : (V → Option P) → Bool) : ℚ :=
  ∑ x ∈ allowedMoves G m W, 1 / ((otherParts G m x.1).card : ℚ)

/-- Random numbers suffice for all choices from the plan `m`: `N` is divisible by the number of boundary nodes and by their numbers of other districts. -/
structure Divides (N : ℕ) (G : Graph V) (m : V → Option P) : Prop where
  nodes : (boundaryNodes G m).card ∣ N
  parts : ∀ v ∈ boundaryNodes G m, (otherParts G m v).card ∣ N

section
variable {G : Graph V} {a : Assignment V P}

theorem mem_boundaryNodes (hG : G.WF) {m : V → Option P} {v : V} : v ∈ boundaryNodes G m ↔ ∃ u, G.Adj v u ∧ m v ≠ m u := by
  unfold boundaryNodes
  rw [Finset.mem_image]
  constructor
  · rintro ⟨x, hx, rfl⟩
    exact ⟨x.2, (mem_cutPairs hG).1 hx⟩
  · rintro ⟨u, hu⟩
    exact ⟨(v, u), (mem_cutPairs hG).2 hu, rfl⟩

theorem cutEnds_eq (hG : G.WF) (m : Dict V P) : cutEnds (cutsOf G m) = boundaryNodes G m.get? := by
  ext v
  rw [mem_boundaryNodes hG]
  unfold cutEnds
  rw [Finset.mem_union, Finset.mem_image, Finset.mem_image]
  constructor
  · rintro (⟨e, he, rfl⟩ | ⟨e, he, rfl⟩)
    · obtain ⟨⟨-, hadj⟩, hne⟩ := mem_cutsOf.1 he
      exact ⟨e.2, hadj, hne⟩
    · obtain ⟨⟨-, hadj⟩, hne⟩ := mem_cutsOf.1 he
      exact ⟨e.1, hadj.symm, fun h => hne h.symm⟩
  · rintro ⟨u, hadj, hne⟩
    rcases le_total v u with h | h
    · exact Or.inl ⟨(v, u), mem_cutsOf.2 ⟨⟨h, hadj⟩, hne⟩, rfl⟩
    · exact Or.inr ⟨(u, v), mem_cutsOf.2 ⟨⟨h, hadj.symm⟩, fun h => hne h.symm⟩, rfl⟩

/-- the labels of the neighbours -/
def nbrLabels (G : Graph V) (a : Assignment V P) (v : V) : List P := ((iter (G.neighbors v)).filterMap a.mapping.get?).dedup

theorem mem_nbrLabels (hG : G.WF) {v : V} {p : P} : p ∈ nbrLabels G a v ↔ ∃ u, G.Adj v u ∧ a.mapping.get? u = some p := by
  unfold nbrLabels
  rw [List.mem_dedup, List.mem_filterMap]
  simp only [mem_iter, Graph.mem_neighbors hG]

theorem mem_otherLabels (hG : G.WF) {v : V} {own p : P} (hv : a.mapping.get? v = some own) :
    p ∈ (nbrLabels G a v).erase own ↔ CanMove G a.mapping v p := by
  have hnd : (nbrLabels G a v).Nodup := List.nodup_dedup _
  rw [hnd.mem_erase_iff, mem_nbrLabels hG]
  constructor
  · rintro ⟨hne, hu⟩
    exact ⟨⟨own, hv, fun h => hne h.symm⟩, hu⟩
  · rintro ⟨⟨p', hp', hne⟩, hu⟩
    rw [hv] at hp'
    cases hp'
    exact ⟨fun h => hne h.symm, hu⟩

theorem nodup_otherLabels (v : V) (own : P) : ((nbrLabels G a v).erase own).Nodup := (List.nodup_dedup _).erase _

theorem length_otherLabels (hG : G.WF) (hcov : a.Covers G.nodes) {v : V} {own : P} (hv : a.mapping.get? v = some own) :
    ((nbrLabels G a v).erase own).length = (otherParts G a.mapping.get? v).card := by
  have h1 : (otherParts G a.mapping.get? v) = ((nbrLabels G a v).erase own).toFinset.image some := by
    ext o
    unfold otherParts
    rw [Finset.mem_erase, Finset.mem_image, Finset.mem_image]
    simp only [List.mem_toFinset, mem_otherLabels hG hv, Graph.mem_neighbors hG]
    constructor
    · rintro ⟨hne, u, hu, rfl⟩
      obtain ⟨q, hq⟩ := covers_adj hG hcov _ _ hu.symm
      refine ⟨q, ⟨⟨own, hv, ?_⟩, u, hu, hq⟩, hq.symm⟩
      rintro rfl
      exact hne (hq.trans hv.symm)
    · rintro ⟨q, ⟨⟨p, hp, hpq⟩, u, hu, hq⟩, rfl⟩
      refine ⟨?_, u, hu, hq⟩
      rw [hp]
      exact fun h => hpq (Option.some.inj h).symm
  rw [h1, Finset.card_image_of_injective _ (Option.some_injective _), List.toFinset_card_of_nodup (nodup_otherLabels v own)]

/-! ### The law of the proposal -/

/-- what `slow_reversible_propose_bi` does with the chosen node -/
def biNode (N : ℕ) (G : Graph V) (x : PlanState V P) (v : V) : M Tape (PlanState V P) := do
  let own ← M.lift (x.plan.mapping.get v)
  if own ∈ nbrLabels G x.plan v then do
    let p ← (uniRand N).choice ((nbrLabels G x.plan v).erase own)
    M.lift (x.flip ⟨[(v, p)]⟩)
  else M.raise .valueError

theorem biMove_eq (N : ℕ) (G : Graph V) (x : PlanState V P) :
    biMove N G x = (uniRand N).choice (iter (cutEnds (cutsOf G x.plan.mapping))) >>= biNode N G x := by
  unfold biMove slowFlipBi
  simp only [M.bind_assoc']
  refine congrArg _ (funext fun v => ?_)
  unfold biNode
  refine congrArg _ (funext fun own => ?_)
  by_cases ho : own ∈ nbrLabels G x.plan v
  · have ho' : own ∈ ((iter (G.neighbors v)).filterMap x.plan.mapping.get?).dedup := ho
    rw [if_pos ho, if_pos ho', M.bind_assoc']
    rfl
  · have ho' : own ∉ ((iter (G.neighbors v)).filterMap x.plan.mapping.get?).dedup := ho
    rw [if_neg ho, if_neg ho']
    rfl

theorem draws_biNode (N : ℕ) (G : Graph V) (x : PlanState V P) (v : V) : Draws 1 (biNode N G x v) := by
  unfold biNode
  refine (draws_lift 0 _).bind (j := 1) (fun own => ?_)
  split
  · exact (draws_choice N _).bind (j := 0) (fun _ => draws_lift 0 _)
  · exact .done (.error .valueError) (fun _ => rfl)

theorem draws_biMove (N : ℕ) (G : Graph V) (x : PlanState V P) : Draws 2 (biMove N G x) := by
  rw [biMove_eq]
  exact (draws_choice N _).bind (j := 1) (fun v => draws_biNode N G x v)

theorem lift_ok_bind {α β : Type} (x : α) (f : α → M Tape β) : (M.lift (.ok x : Py α) >>= f) = f x := rfl

theorem law_biNode {N : ℕ} (hN : 0 < N) (hG : G.WF) {x : PlanState V P} (hcov : x.plan.Covers G.nodes) {v : V} {own : P}
    (hv : x.plan.mapping.get? v = some own) (hb : v ∈ boundaryNodes G x.plan.mapping.get?) (hd : (otherParts G x.plan.mapping.get? v).card ∣ N)
    (g : Py (PlanState V P) → ℚ) (L : ℕ) :
    avg N (L + 1) (fun t => g (biNode N G x v t).1) = if own ∈ nbrLabels G x.plan v then
      (((nbrLabels G x.plan v).erase own).map (fun p => g (x.flip ⟨[(v, p)]⟩))).sum / (otherParts G x.plan.mapping.get? v).card
      else g (.error .valueError) := by
  unfold biNode
  rw [Dict.get_eq_ok_iff.2 hv, lift_ok_bind]
  split
  · have hne : (nbrLabels G x.plan v).erase own ≠ [] := by
      obtain ⟨u, hu, hne⟩ := (mem_boundaryNodes hG).1 hb
      obtain ⟨q, hq⟩ := covers_adj hG hcov _ _ hu.symm
      refine List.ne_nil_of_mem (a := q) ((mem_otherLabels hG hv).2 ⟨⟨own, hv, ?_⟩, u, hu, hq⟩)
      rintro rfl
      exact hne (hv.trans hq.symm)
    rw [avg_choice hN L _ hne (by rw [length_otherLabels hG hcov hv]; exact hd), length_otherLabels hG hcov hv]
    congr 2
    exact List.map_congr_left (fun p _ => avg_const hN L (g (x.flip ⟨[(v, p)]⟩)))
  · exact avg_const hN (L + 1) (g (.error .valueError))

/-- the moves of a plan, as a set -/
def moveSet (G : Graph V) (a : Assignment V P) : Finset (V × P) := (flipPairs a (cutsOf G a.mapping)).toFinset

theorem mem_moveSet (hG : G.WF) (hcov : a.Covers G.nodes) {f : V × P} : f ∈ moveSet G a ↔ CanMove G a.mapping f.1 f.2 := by
  unfold moveSet
  rw [List.mem_toFinset]
  exact mem_flipPairs hG hcov

theorem boundary_of_canMove (hG : G.WF) {v : V} {q : P} (h : CanMove G a.mapping v q) : v ∈ boundaryNodes G a.mapping.get? := by
  obtain ⟨⟨p, hp, hpq⟩, u, hu, hq⟩ := h
  refine (mem_boundaryNodes hG).2 ⟨u, hu, ?_⟩
  rw [hp, hq]
  exact fun h => hpq (Option.some.inj h)

theorem sum_over_iter {α : Type} [LinearOrder α] (s : Finset α) (φ : α → ℚ) : ((iter s).map φ).sum = ∑ x ∈ s, φ x := by
  rw [← List.sum_toFinset φ (nodup_iter s), toFinset_iter]

/-- the probability of a move -/
def biProb (G : Graph V) (m : V → Option P) (v : V) : ℚ := 1 / ((boundaryNodes G m).card * (otherParts G m v).card)

/-- The law of the proposal: every move of a boundary node has probability one divided by the number of boundary nodes and by the number of districts the node can be
moved to. -/
theorem bi_law {N : ℕ} (hN : 0 < N) (hG : G.WF) {x : PlanState V P} (hcov : x.plan.Covers G.nodes) (hd : Divides N G x.plan.mapping.get?)
    (ha : Anchored G x.plan.mapping.get?) (hne : (boundaryNodes G x.plan.mapping.get?).Nonempty) (g : Py (PlanState V P) → ℚ) (L : ℕ) (hL : 2 ≤ L) :
    avg N L (fun t => g (biMove N G x t).1) = ∑ f ∈ moveSet G x.plan, biProb G x.plan.mapping.get? f.1 * g (x.flip ⟨[f]⟩) := by
  obtain ⟨L, rfl⟩ : ∃ L', L = L' + 1 + 1 := ⟨L - 2, by omega⟩
  rw [biMove_eq, avg_choice hN (L + 1) _ (by rw [cutEnds_eq hG, Ne, ← List.length_eq_zero_iff, length_iter]; exact (Finset.card_pos.2 hne).ne')
    (by rw [cutEnds_eq hG, length_iter]; exact hd.nodes), length_iter, sum_over_iter, cutEnds_eq hG,
    ← Finset.sum_fiberwise_of_maps_to (s := moveSet G x.plan) (t := boundaryNodes G x.plan.mapping.get?) (g := Prod.fst)
      (fun f hf => boundary_of_canMove hG ((mem_moveSet hG hcov).1 hf)), Finset.sum_div]
  refine Finset.sum_congr rfl (fun v hv => ?_)
  obtain ⟨u, hu, -⟩ := (mem_boundaryNodes hG).1 hv
  obtain ⟨own, hown⟩ := covers_adj hG hcov _ _ hu
  obtain ⟨w, hw, hwv⟩ := ha v hv
  rw [law_biNode hN hG hcov hown hv (hd.parts v hv), if_pos ((mem_nbrLabels hG).2 ⟨w, hw, hwv.trans hown⟩), ← List.sum_toFinset _ (nodup_otherLabels v own),
    div_div, Finset.sum_div]
  refine Finset.sum_bij' (fun p _ => (v, p)) (fun f _ => f.2) ?_ ?_ ?_ ?_ ?_
  · intro p hp
    rw [List.mem_toFinset, mem_otherLabels hG hown] at hp
    exact Finset.mem_filter.2 ⟨(mem_moveSet hG hcov).2 hp, rfl⟩
  · intro f hf
    obtain ⟨h1, rfl⟩ := Finset.mem_filter.1 hf
    rw [List.mem_toFinset, mem_otherLabels hG hown]
    exact (mem_moveSet hG hcov).1 h1
  · intro p _; rfl
  · intro f hf
    obtain ⟨h1, rfl⟩ := Finset.mem_filter.1 hf
    rfl
  · intro p _
    unfold biProb
    rw [div_eq_mul_one_div, mul_comm, mul_comm ((otherParts G x.plan.mapping.get? v).card : ℚ)]

theorem card_otherParts_pos (hG : G.WF) {m : V → Option P} {v : V} (hv : v ∈ boundaryNodes G m) : 0 < (otherParts G m v).card := by
  obtain ⟨u, hu, hne⟩ := (mem_boundaryNodes hG).1 hv
  refine Finset.card_pos.2 ⟨m u, Finset.mem_erase.2 ⟨fun h => hne h.symm, Finset.mem_image_of_mem _ ((Graph.mem_neighbors hG).2 hu)⟩⟩

theorem biProb_pos (hG : G.WF) {m : V → Option P} {v : V} (hv : v ∈ boundaryNodes G m) : 0 < biProb G m v := by
  have h1 : (0 : ℚ) < (boundaryNodes G m).card := by exact_mod_cast Finset.card_pos.2 ⟨v, hv⟩
  have h2 : (0 : ℚ) < (otherParts G m v).card := by exact_mod_cast card_otherParts_pos hG hv
  unfold biProb
  positivity

/-- sums over allowed moves -/
theorem sum_allowedMoves (hG : G.WF) (hcov : a.Covers G.nodes) (W : (V → Option P) → Bool) (φ : V → ℚ) :
    ∑ x ∈ allowedMoves G a.mapping.get? W, φ x.1 = ∑ f ∈ (moveSet G a).filter (fun f => W (moved a.mapping.get? f.1 (some f.2)) = true), φ f.1 := by
  have h1 : allowedMoves G a.mapping.get? W =
      ((moveSet G a).filter (fun f => W (moved a.mapping.get? f.1 (some f.2)) = true)).image (fun f => (f.1, some f.2)) := by
    ext ⟨v, o⟩
    rw [mem_allowedMoves hG hcov, Finset.mem_image]
    constructor
    · rintro ⟨q, rfl, hm, hW⟩
      exact ⟨(v, q), Finset.mem_filter.2 ⟨(mem_moveSet hG hcov).2 hm, hW⟩, rfl⟩
    · rintro ⟨⟨v', q⟩, hf, he⟩
      cases he
      obtain ⟨h1, h2⟩ := Finset.mem_filter.1 hf
      exact ⟨q, rfl, (mem_moveSet hG hcov).1 h1, h2⟩
  rw [h1, Finset.sum_image]
  rintro ⟨x, y⟩ - ⟨x', y'⟩ - h
  simp only [Prod.mk.injEq, Option.some.injEq] at h
  exact Prod.ext h.1 h.2

end

/-! ### One step of the chain -/

section
variable {G : Graph V} {a : Assignment V P} {W : (V → Option P) → Bool} {ch : Chain Tape (PlanState V P)} {x0 : PlanState V P} {steps : ℤ} {N : ℕ}

theorem bi_outcome (hG : G.WF) (hcov : a.Covers G.nodes) (h : AtPlan ch a W steps) (hN : 0 < N) (hd : Divides N G a.mapping.get?)
    (han : Anchored G a.mapping.get?) (hne : (boundaryNodes G a.mapping.get?).Nonempty) (E : Py (PlanState V P) → Prop) [DecidablePred E] (L : ℕ) (hL : 2 ≤ L) :
    stepProb N L (flipChain (biMove N G) alwaysAccept x0 steps) ch 1 E = ∑ f ∈ moveSet G a, biProb G a.mapping.get? f.1 *
      decidedAvg N 0 (flipChain (biMove N G) alwaysAccept x0 steps) ch (fun x => W x.plan.mapping.get?) E (ch.state.flip ⟨[f]⟩) := by
  obtain ⟨k, hc, hk⟩ := h.counter
  have hD := draws_always (x0 := x0) (prop := biMove N G) h (draws_biMove N G ch.state)
  rw [stepProb_eq E k hc, loop_value hD hN E (k + 1) hk 1 L (by omega), Finset.sum_range_one, pow_zero, mul_one]
  have hs := h.state
  subst hs
  exact bi_law hN hG hcov hd han hne _ 2 le_rfl

theorem bi_total (hG : G.WF) (hcov : a.Covers G.nodes) (h : AtPlan ch a W steps) (hN : 0 < N) (hd : Divides N G a.mapping.get?)
    (han : Anchored G a.mapping.get?) (hne : (boundaryNodes G a.mapping.get?).Nonempty) : ∑ f ∈ moveSet G a, biProb G a.mapping.get? f.1 = 1 := by
  have hs := h.state
  subst hs
  have := bi_law hN hG hcov hd han hne (fun _ => 1) 2 le_rfl
  rw [avg_const hN] at this
  simpa using this.symm

theorem bi_valid (hG : G.WF) (ha : a.Coherent) (hcov : a.Covers G.nodes) (h : AtPlan ch a W steps) (hN : 0 < N) (hd : Divides N G a.mapping.get?)
    (han : Anchored G a.mapping.get?) (hne : (boundaryNodes G a.mapping.get?).Nonempty) (L : ℕ) (hL : 2 ≤ L) :
    1 - invalidProb N L (flipChain (biMove N G) alwaysAccept x0 steps) ch (fun x => W x.plan.mapping.get?) =
      biWeight G a.mapping.get? W / (boundaryNodes G a.mapping.get?).card := by
  have h1 : invalidProb N L (flipChain (biMove N G) alwaysAccept x0 steps) ch (fun x => W x.plan.mapping.get?) =
      ∑ f ∈ moveSet G a, biProb G a.mapping.get? f.1 * if W (moved a.mapping.get? f.1 (some f.2)) = true then 0 else 1 := by
    have hs : ch.state.plan = a := h.state
    have := bi_law (x := ch.state) hN hG (by rw [hs]; exact hcov) (by rw [hs]; exact hd) (by rw [hs]; exact han) (by rw [hs]; exact hne)
      (fun r => if refused (fun x : PlanState V P => W x.plan.mapping.get?) r = true then 1 else 0) L hL
    refine this.trans ?_
    rw [hs]
    refine Finset.sum_congr rfl (fun f hf => ?_)
    obtain ⟨b, hb, hm⟩ := state_flip hG ha hcov h ((mem_moveSet hG hcov).1 hf)
    rw [hb]
    simp only [refused, hm]
    cases W (moved a.mapping.get? f.1 (some f.2)) <;> simp
  have h2 := bi_total hG hcov h hN hd han hne
  rw [h1]
  refine Eq.trans (congrArg (· - _) h2.symm) ?_
  rw [← Finset.sum_sub_distrib]
  unfold biWeight
  rw [sum_allowedMoves hG hcov W (fun v => 1 / ((otherParts G a.mapping.get? v).card : ℚ)), Finset.sum_filter, Finset.sum_div]
  refine Finset.sum_congr rfl (fun f _ => ?_)
  unfold biProb
  by_cases hW : W (moved a.mapping.get? f.1 (some f.2)) = true
  · rw [if_pos hW, if_pos hW, mul_zero, sub_zero, div_div, mul_comm]
  · rw [if_neg hW, if_neg hW, mul_one, sub_self, zero_div]

theorem biWeight_pos (hG : G.WF) {m : V → Option P} {v u : V} (hvu : (v, u) ∈ allowedPairs G m W) : 0 < biWeight G m W := by
  refine Finset.sum_pos (fun x hx => ?_) ⟨_, Finset.mem_image_of_mem _ hvu⟩
  obtain ⟨y, hy, rfl⟩ := Finset.mem_image.1 hx
  have : (0 : ℚ) < (otherParts G m y.1).card := by
    exact_mod_cast card_otherParts_pos hG (Finset.mem_image_of_mem _ (Finset.mem_filter.1 hy).1)
  positivity

/-- The probability of the step from the plan of `ch` to the plan `b`, given that it is decided within `n` proposals -/
noncomputable def biStep (N L : ℕ) (G : Graph V) (x0 : PlanState V P) (steps : ℤ) (ch : Chain Tape (PlanState V P)) (n : ℕ) (b : V → Option P) : ℚ :=
  stepProb N L (flipChain (biMove N G) alwaysAccept x0 steps) ch n (Arrives b) /
    stepProb N L (flipChain (biMove N G) alwaysAccept x0 steps) ch n (fun _ => True)

theorem bi_first (hG : G.WF) (ha : a.Coherent) (hcov : a.Covers G.nodes) (h : AtPlan ch a W steps) (hN : 0 < N) (hd : Divides N G a.mapping.get?)
    (han : Anchored G a.mapping.get?) {v u : V} (hvu : (v, u) ∈ allowedPairs G a.mapping.get? W) (L : ℕ) (hL : 2 ≤ L) :
    stepProb N L (flipChain (biMove N G) alwaysAccept x0 steps) ch 1 (Arrives (moved a.mapping.get? v (a.mapping.get? u))) =
      biProb G a.mapping.get? v := by
  obtain ⟨h1, hW⟩ := Finset.mem_filter.1 hvu
  obtain ⟨q, hq⟩ := covers_adj hG hcov _ _ ((mem_cutPairs hG).1 h1).1.symm
  have hcan : CanMove G a.mapping v q := (canMove_iff hG hcov).2 ⟨u, h1, hq⟩
  rw [bi_outcome hG hcov h hN hd han ⟨v, Finset.mem_image_of_mem _ h1⟩ _ L hL]
  dsimp only at hW
  rw [hq] at hW ⊢
  rw [Finset.sum_congr rfl (fun f hf => by
    rw [always_value (N := N) (x0 := x0) (prop := biMove N G) hG ha hcov h hcan hW ((mem_moveSet hG hcov).1 hf)])]
  simp only [mul_ite, mul_one, mul_zero]
  rw [Finset.sum_ite_eq' (moveSet G a) (v, q) (fun f => biProb G a.mapping.get? f.1), if_pos ((mem_moveSet hG hcov).2 hcan)]

theorem bi_invalid_lt (hG : G.WF) (ha : a.Coherent) (hcov : a.Covers G.nodes) (h : AtPlan ch a W steps) (hN : 0 < N) (hd : Divides N G a.mapping.get?)
    (han : Anchored G a.mapping.get?) {v u : V} (hvu : (v, u) ∈ allowedPairs G a.mapping.get? W) (L : ℕ) (hL : 2 ≤ L) :
    invalidProb N L (flipChain (biMove N G) alwaysAccept x0 steps) ch (fun x => W x.plan.mapping.get?) < 1 := by
  have hb : v ∈ boundaryNodes G a.mapping.get? := Finset.mem_image_of_mem Prod.fst (Finset.mem_filter.1 hvu).1
  have h1 := bi_valid (x0 := x0) hG ha hcov h hN hd han ⟨v, hb⟩ L hL
  have h2 : (0 : ℚ) < (boundaryNodes G a.mapping.get?).card := by exact_mod_cast Finset.card_pos.2 ⟨v, hb⟩
  have := div_pos (biWeight_pos (W := W) hG hvu) h2
  linarith

theorem bi_ratio (hG : G.WF) {m : V → Option P} {v u : V} (hvu : (v, u) ∈ allowedPairs G m W) :
    biProb G m v / (biWeight G m W / (boundaryNodes G m).card) = 1 / (otherParts G m v).card / biWeight G m W := by
  have hb : v ∈ boundaryNodes G m := Finset.mem_image_of_mem Prod.fst (Finset.mem_filter.1 hvu).1
  have h2 : (0 : ℚ) < (boundaryNodes G m).card := by exact_mod_cast Finset.card_pos.2 ⟨v, hb⟩
  have h3 : (0 : ℚ) < (otherParts G m v).card := by exact_mod_cast card_otherParts_pos hG hb
  have h4 := biWeight_pos (W := W) hG hvu
  unfold biProb
  field_simp

end

/-- **C93** In a chain with `slow_reversible_propose_bi`, `always_accept` and constraints that depend on the plan only, for any number of districts: given that the
step from plan `a` is decided within `n` proposals, the probability that it moves `v` to the district of its neighbour `u` is inversely proportional to the number of
districts next to `v` other than its own. -/
theorem C93_step (G : Graph V) (hG : G.WF) (a : Assignment V P) (ha : a.Coherent) (hcov : a.Covers G.nodes) (W : (V → Option P) → Bool)
    (N : ℕ) (hN : 0 < N) (hd : Divides N G a.mapping.get?) (han : Anchored G a.mapping.get?) (x0 : PlanState V P) (steps : ℤ)
    (ch : Chain Tape (PlanState V P)) (h : AtPlan ch a W steps) (v u : V) (hvu : (v, u) ∈ allowedPairs G a.mapping.get? W)
    (n L : ℕ) (hn : 0 < n) (hL : n * 2 ≤ L) :
    biStep N L G x0 steps ch n (moved a.mapping.get? v (a.mapping.get? u)) =
      1 / (otherParts G a.mapping.get? v).card / ∑ x ∈ allowedMoves G a.mapping.get? W, 1 / ((otherParts G a.mapping.get? x.1).card : ℚ) := by
  obtain ⟨k, hc, hk⟩ := h.counter
  have hb : v ∈ boundaryNodes G a.mapping.get? := Finset.mem_image_of_mem Prod.fst (Finset.mem_filter.1 hvu).1
  unfold biStep
  rw [C75_conditional _ ch _ 2 0 (draws_always h (draws_biMove N G ch.state)) N hN _ k hc hk n L 2 hn hL le_rfl
    (bi_invalid_lt hG ha hcov h hN hd han hvu 2 le_rfl), bi_first hG ha hcov h hN hd han hvu 2 le_rfl,
    bi_valid hG ha hcov h hN hd han ⟨v, hb⟩ 2 le_rfl, bi_ratio hG hvu]
  rfl

/-- **C93 (limit)** Without a bound on the number of proposals this is the probability of the step. -/
theorem C93_limit (G : Graph V) (hG : G.WF) (a : Assignment V P) (ha : a.Coherent) (hcov : a.Covers G.nodes) (W : (V → Option P) → Bool)
    (N : ℕ) (hN : 0 < N) (hd : Divides N G a.mapping.get?) (han : Anchored G a.mapping.get?) (x0 : PlanState V P) (steps : ℤ)
    (ch : Chain Tape (PlanState V P)) (h : AtPlan ch a W steps) (v u : V) (hvu : (v, u) ∈ allowedPairs G a.mapping.get? W) (ε : ℚ) (hε : 0 < ε) :
    ∃ n0, ∀ n L, n0 ≤ n → n * 2 ≤ L →
      |stepProb N L (flipChain (biMove N G) alwaysAccept x0 steps) ch n (Arrives (moved a.mapping.get? v (a.mapping.get? u))) -
        1 / (otherParts G a.mapping.get? v).card / ∑ x ∈ allowedMoves G a.mapping.get? W, 1 / ((otherParts G a.mapping.get? x.1).card : ℚ)| < ε := by
  obtain ⟨k, hc, hk⟩ := h.counter
  have hb : v ∈ boundaryNodes G a.mapping.get? := Finset.mem_image_of_mem Prod.fst (Finset.mem_filter.1 hvu).1
  obtain ⟨n0, hn0⟩ := C75_limit _ ch _ 2 0 (draws_always (x0 := x0) (prop := biMove N G) h (draws_biMove N G ch.state)) N hN
    (Arrives (moved a.mapping.get? v (a.mapping.get? u))) k hc hk 2 le_rfl (bi_invalid_lt hG ha hcov h hN hd han hvu 2 le_rfl) ε hε
  refine ⟨n0, fun n L hn hL => ?_⟩
  have := hn0 n L hn hL
  rw [bi_first hG ha hcov h hN hd han hvu 2 le_rfl, bi_valid hG ha hcov h hN hd han ⟨v, hb⟩ 2 le_rfl, bi_ratio hG hvu] at this
  exact this

/-! ### Reversibility -/

section
variable {G : Graph V} {W : (V → Option P) → Bool}

/-- A move that can be undone does not change the number of districts to which the node can be moved. -/
theorem card_otherParts_moved (hG : G.WF) {m : V → Option P} {v u w : V} (hu : G.Adj v u) (hne : m v ≠ m u) (hw : G.Adj v w) (hwv : w ≠ v) (hmw : m w = m v) :
    (otherParts G (moved m v (m u)) v).card = (otherParts G m v).card := by
  have huv : u ≠ v := fun h => hne (by rw [h])
  have hv' : moved m v (m u) v = m u := by simp [moved]
  have hx' : ∀ x, x ≠ v → moved m v (m u) x = m x := fun x hx => by simp [moved, hx]
  have himg : (G.neighbors v).image (moved m v (m u)) = (G.neighbors v).image m := by
    ext o
    rw [Finset.mem_image, Finset.mem_image]
    simp only [Graph.mem_neighbors hG]
    constructor
    · rintro ⟨x, hx, rfl⟩
      by_cases hxv : x = v
      · subst hxv; exact ⟨u, hu, hv'.symm⟩
      · exact ⟨x, hx, (hx' x hxv).symm⟩
    · rintro ⟨x, hx, rfl⟩
      by_cases hxv : x = v
      · subst hxv; exact ⟨w, hw, (hx' w hwv).trans hmw⟩
      · exact ⟨x, hx, hx' x hxv⟩
  unfold otherParts
  rw [himg, Finset.card_erase_of_mem, Finset.card_erase_of_mem]
  · exact Finset.mem_image.2 ⟨w, (Graph.mem_neighbors hG).2 hw, hmw⟩
  · rw [hv']
    exact Finset.mem_image_of_mem _ ((Graph.mem_neighbors hG).2 hu)

end

/-- **C93 (detailed balance)** For any number of districts: if `b` is `a` with one node moved to a neighbouring district, the node has a neighbour left in its old
district, and both plans satisfy the constraints, then the flows between `a` and `b` balance when a plan weighs the sum over its allowed moves of one divided by the
number of districts to which the node could be moved. -/
theorem C93_detailed_balance (G : Graph V) (hG : G.WF) (a b : Assignment V P) (ha : a.Coherent) (hb : b.Coherent) (hcov : a.Covers G.nodes)
    (hcovb : b.Covers G.nodes) (W : (V → Option P) → Bool) (hWa : W a.mapping.get? = true) (hWb : W b.mapping.get? = true) (N : ℕ) (hN : 0 < N)
    (hda : Divides N G a.mapping.get?) (hdb : Divides N G b.mapping.get?) (hana : Anchored G a.mapping.get?) (hanb : Anchored G b.mapping.get?)
    (x0 : PlanState V P) (steps : ℤ) (cha chb : Chain Tape (PlanState V P)) (h : AtPlan cha a W steps) (h' : AtPlan chb b W steps)
    (v u w : V) (hu : G.Adj v u) (hne : a.mapping.get? v ≠ a.mapping.get? u) (hbm : b.mapping.get? = moved a.mapping.get? v (a.mapping.get? u))
    (hw : G.Adj v w) (hwv : w ≠ v) (hback : a.mapping.get? w = a.mapping.get? v)
    (n L : ℕ) (hn : 0 < n) (hL : n * 2 ≤ L) :
    (∑ x ∈ allowedMoves G a.mapping.get? W, 1 / ((otherParts G a.mapping.get? x.1).card : ℚ)) * biStep N L G x0 steps cha n b.mapping.get? =
        (∑ x ∈ allowedMoves G b.mapping.get? W, 1 / ((otherParts G b.mapping.get? x.1).card : ℚ)) * biStep N L G x0 steps chb n a.mapping.get? ∧
      0 < biStep N L G x0 steps cha n b.mapping.get? := by
  have h1 : (v, u) ∈ allowedPairs G a.mapping.get? W :=
    Finset.mem_filter.2 ⟨(mem_cutPairs hG).2 ⟨hu, hne⟩, by rw [← hbm]; exact hWb⟩
  obtain ⟨h2, h3⟩ := allowed_back hG hWa (Finset.mem_filter.1 h1).1 hwv hw hback
  have hcard := card_otherParts_moved hG hu hne hw hwv hback
  rw [← hbm] at h2 h3 hcard
  have e1 := C93_step G hG a ha hcov W N hN hda hana x0 steps cha h v u h1 n L hn hL
  have e2 := C93_step G hG b hb hcovb W N hN hdb hanb x0 steps chb h' v w h2 n L hn hL
  rw [← hbm] at e1
  rw [h3, hcard] at e2
  have p1 := biWeight_pos (W := W) hG h1
  have p2 := biWeight_pos (W := W) hG h2
  unfold biWeight at p1 p2
  have p3 : (0 : ℚ) < (otherParts G a.mapping.get? v).card := by
    exact_mod_cast card_otherParts_pos hG (Finset.mem_image_of_mem Prod.fst (Finset.mem_filter.1 h1).1)
  rw [e1, e2, mul_div_cancel₀ _ p1.ne', mul_div_cancel₀ _ p2.ne']
  exact ⟨rfl, div_pos (one_div_pos.2 p3) p1⟩

theorem biStep_zero {G : Graph V} (hG : G.WF) {a : Assignment V P} (ha : a.Coherent) (hcov : a.Covers G.nodes) {W : (V → Option P) → Bool}
    {N : ℕ} (hN : 0 < N) (hd : Divides N G a.mapping.get?) (han : Anchored G a.mapping.get?) {x0 : PlanState V P} {steps : ℤ}
    {ch : Chain Tape (PlanState V P)} (h : AtPlan ch a W steps) {b : V → Option P} (hex : (allowedMoves G a.mapping.get? W).Nonempty)
    (hb : ∀ x ∈ allowedMoves G a.mapping.get? W, moved a.mapping.get? x.1 x.2 ≠ b) (n L : ℕ) (hL : n * 2 ≤ L) :
    biStep N L G x0 steps ch n b = 0 := by
  obtain ⟨x, hx⟩ := hex
  obtain ⟨y, hy, -⟩ := Finset.mem_image.1 hx
  obtain ⟨k, hc, hk⟩ := h.counter
  have hD := draws_always (x0 := x0) (prop := biMove N G) h (draws_biMove N G ch.state)
  unfold biStep
  rw [C75_retry (flipChain (biMove N G) alwaysAccept x0 steps) ch _ 2 0 hD N hN _ k hc hk n L 2 hL le_rfl,
    bi_outcome hG hcov h hN hd han ⟨y.1, Finset.mem_image_of_mem _ (Finset.mem_filter.1 hy).1⟩ _ 2 le_rfl]
  have hz : ∀ f ∈ moveSet G a, biProb G a.mapping.get? f.1 * decidedAvg N 0 (flipChain (biMove N G) alwaysAccept x0 steps) ch
      (fun x => W x.plan.mapping.get?) (Arrives b) (ch.state.flip ⟨[f]⟩) = 0 := by
    intro f hf
    have hcan := (mem_moveSet hG hcov).1 hf
    obtain ⟨b', hb', hm⟩ := state_flip hG ha hcov h hcan
    unfold decidedAvg
    rw [avg_zero, hb']
    simp only [decided, hm]
    split
    · rename_i hWf
      have : ¬ Arrives b (.ok ⟨b', some a⟩) := by
        rintro ⟨y, hy, hx⟩
        cases hy
        refine hb (f.1, some f.2) ((mem_allowedMoves hG hcov).2 ⟨f.2, rfl, hcan, hWf⟩) ?_
        rw [← hm]
        exact funext hx
      show _ * (if Arrives _ _ then (1 : ℚ) else 0) = 0
      rw [if_neg this, mul_zero]
    · exact mul_zero _
  rw [Finset.sum_congr rfl hz]
  simp

/-- **C93 (stationary)** For any number of districts, on a set of plans closed under allowed moves, in which every boundary node has a neighbour in its own district and every
allowed move can be undone: the distribution that weighs a plan with the sum over its allowed moves of one divided by the number of districts to which the node could
be moved is stationary. -/
theorem C93_stationary (G : Graph V) (hG : G.WF) (W : (V → Option P) → Bool) (S : Finset (V → Option P)) (asg : (V → Option P) → Assignment V P)
    (hS : FlipPlans G W S asg) (N : ℕ) (hN : 0 < N) (hd : ∀ m ∈ S, Divides N G m) (han : ∀ m ∈ S, Anchored G m) (x0 : PlanState V P) (steps : ℤ)
    (ch : (V → Option P) → Chain Tape (PlanState V P)) (hch : ∀ m ∈ S, AtPlan (ch m) (asg m) W steps) (n L : ℕ) (hn : 0 < n) (hL : n * 2 ≤ L)
    (b : V → Option P) (hb : b ∈ S) :
    ∑ m ∈ S, (∑ x ∈ allowedMoves G m W, 1 / ((otherParts G m x.1).card : ℚ)) * biStep N L G x0 steps (ch m) n b =
      ∑ x ∈ allowedMoves G b W, 1 / ((otherParts G b x.1).card : ℚ) := by
  classical
  have hmap := hS.mapping
  -- zero unless there is an allowed move
  have hzero : ∀ m ∈ S, ∀ c, (∀ x ∈ allowedMoves G m W, moved m x.1 x.2 ≠ c) →
      (∑ x ∈ allowedMoves G m W, 1 / ((otherParts G m x.1).card : ℚ)) * biStep N L G x0 steps (ch m) n c = 0 := by
    intro m hm c hc
    rcases (allowedMoves G m W).eq_empty_or_nonempty with h0 | h0
    · rw [h0]; simp
    · have hmm := hmap m hm
      rw [biStep_zero (a := asg m) (W := W) hG (hS.coherent m hm) (hS.covers m hm) hN (by rw [hmm]; exact hd m hm) (by rw [hmm]; exact han m hm) (hch m hm)
        (by rw [hmm]; exact h0) (by rw [hmm]; exact hc) n L hL, mul_zero]
  have hflow : ∀ m ∈ S, (∑ x ∈ allowedMoves G m W, 1 / ((otherParts G m x.1).card : ℚ)) * biStep N L G x0 steps (ch m) n b =
      (∑ x ∈ allowedMoves G b W, 1 / ((otherParts G b x.1).card : ℚ)) * biStep N L G x0 steps (ch b) n m := by
    intro m hm
    by_cases hex : ∃ x ∈ allowedMoves G m W, moved m x.1 x.2 = b
    · obtain ⟨x, hx, hxb⟩ := hex
      obtain ⟨⟨v, u⟩, hvu, rfl⟩ := Finset.mem_image.1 hx
      obtain ⟨w, hwv, hw, hmw⟩ := hS.back m hm _ hvu
      obtain ⟨hadj, hne⟩ := (mem_cutPairs hG).1 (Finset.mem_filter.1 hvu).1
      have := (C93_detailed_balance G hG (asg m) (asg b) (hS.coherent m hm) (hS.coherent b hb) (hS.covers m hm) (hS.covers b hb) W
        (by rw [hmap m hm]; exact hS.valid m hm) (by rw [hmap b hb]; exact hS.valid b hb) N hN (by rw [hmap m hm]; exact hd m hm)
        (by rw [hmap b hb]; exact hd b hb) (by rw [hmap m hm]; exact han m hm) (by rw [hmap b hb]; exact han b hb) x0 steps (ch m) (ch b) (hch m hm) (hch b hb)
        v u w hadj (by rw [hmap m hm]; exact hne) (by rw [hmap m hm, hmap b hb]; exact hxb.symm) hw hwv (by rw [hmap m hm]; exact hmw) n L hn hL).1
      rw [hmap m hm, hmap b hb] at this
      exact this
    · have h1 : ∀ x ∈ allowedMoves G m W, moved m x.1 x.2 ≠ b := fun x hx he => hex ⟨x, hx, he⟩
      have h2 : ∀ x ∈ allowedMoves G b W, moved b x.1 x.2 ≠ m := by
        intro x hx he
        obtain ⟨⟨v, u⟩, hvu, rfl⟩ := Finset.mem_image.1 hx
        obtain ⟨w, hwv, hw, hbw⟩ := hS.back b hb _ hvu
        obtain ⟨k1, k2⟩ := allowed_back hG (hS.valid b hb) (Finset.mem_filter.1 hvu).1 hwv hw hbw
        dsimp only at he
        rw [he] at k1 k2
        exact h1 _ (Finset.mem_image_of_mem _ k1) k2
      rw [hzero m hm b h1, hzero b hb m h2]
  rw [Finset.sum_congr rfl hflow, ← Finset.mul_sum]
  rcases (allowedMoves G b W).eq_empty_or_nonempty with h0 | h0
  · rw [h0]; simp
  · obtain ⟨x0', hx0'⟩ := h0
    obtain ⟨⟨v0, u0⟩, hvu0, -⟩ := Finset.mem_image.1 hx0'
    have hpos := biWeight_pos (W := W) hG hvu0
    have htot : ∑ m ∈ S, biStep N L G x0 steps (ch b) n m = ∑ x ∈ allowedMoves G b W, biStep N L G x0 steps (ch b) n (moved b x.1 x.2) := by
      rw [← Finset.sum_image (s := allowedMoves G b W) (g := fun x => moved b x.1 x.2) (f := fun m => biStep N L G x0 steps (ch b) n m)]
      · refine (Finset.sum_subset ?_ ?_).symm
        · intro m hm
          obtain ⟨x, hx, rfl⟩ := Finset.mem_image.1 hm
          obtain ⟨⟨v, u⟩, hvu, rfl⟩ := Finset.mem_image.1 hx
          exact hS.closed b hb _ hvu
        · intro m _ hm
          have := hzero b hb m (fun x hx he => hm (Finset.mem_image.2 ⟨x, hx, he⟩))
          exact (mul_eq_zero.1 this).resolve_left hpos.ne'
      · intro x hx y hy hxy
        obtain ⟨⟨v, u⟩, hvu, rfl⟩ := Finset.mem_image.1 hx
        obtain ⟨⟨v', u'⟩, hvu', rfl⟩ := Finset.mem_image.1 hy
        have n1 := ((mem_cutPairs hG).1 (Finset.mem_filter.1 hvu).1).2
        have n2 := ((mem_cutPairs hG).1 (Finset.mem_filter.1 hvu').1).2
        obtain ⟨e1, e2⟩ := moved_inj n1 n2 hxy
        exact Prod.ext e1 e2
    rw [htot]
    have hone : ∑ x ∈ allowedMoves G b W, biStep N L G x0 steps (ch b) n (moved b x.1 x.2) =
        ∑ x ∈ allowedMoves G b W, 1 / ((otherParts G b x.1).card : ℚ) / biWeight G b W := by
      refine Finset.sum_congr rfl (fun x hx => ?_)
      obtain ⟨⟨v, u⟩, hvu, rfl⟩ := Finset.mem_image.1 hx
      have := C93_step G hG (asg b) (hS.coherent b hb) (hS.covers b hb) W N hN (by rw [hmap b hb]; exact hd b hb) (by rw [hmap b hb]; exact han b hb) x0 steps
        (ch b) (hch b hb) v u (by rw [hmap b hb]; exact hvu) n L hn hL
      rw [hmap b hb] at this
      exact this
    rw [hone, ← Finset.sum_div]
    show biWeight G b W * (biWeight G b W / biWeight G b W) = biWeight G b W
    rw [div_self hpos.ne', mul_one]

theorem otherParts_two {G : Graph V} (hG : G.WF) {m : V → Option P} {p q : P} (htwo : ∀ x ∈ G.nodes, m x = some p ∨ m x = some q) {v : V}
    (hv : v ∈ boundaryNodes G m) : (otherParts G m v).card = 1 := by
  refine le_antisymm ?_ (card_otherParts_pos hG hv)
  obtain ⟨u, hu, hne⟩ := (mem_boundaryNodes hG).1 hv
  rw [Finset.card_le_one]
  have key : ∀ o ∈ otherParts G m v, o = m u := by
    intro o ho
    obtain ⟨h1, h2⟩ := Finset.mem_erase.1 ho
    obtain ⟨x, hx, rfl⟩ := Finset.mem_image.1 h2
    rw [Graph.mem_neighbors hG] at hx
    have k1 := htwo v (hG.mem_of_adj hu).1
    have k2 := htwo u (hG.mem_of_adj hu).2
    have k3 := htwo x (hG.mem_of_adj hx).2
    rcases k1 with k1 | k1 <;> rcases k2 with k2 | k2 <;> rcases k3 with k3 | k3 <;> rw [k1] at h1 hne <;> rw [k2] at hne ⊢ <;> rw [k3] at h1 ⊢ <;> simp_all
  intro o ho o' ho'
  rw [key o ho, key o' ho']

/-- **C93 (two districts)** For bipartitions every allowed move has the same probability, as with `slow_reversible_propose`. -/
theorem C93_two_districts (G : Graph V) (hG : G.WF) (a : Assignment V P) (ha : a.Coherent) (hcov : a.Covers G.nodes) (p q : P)
    (htwo : ∀ x ∈ G.nodes, a.mapping.get? x = some p ∨ a.mapping.get? x = some q) (W : (V → Option P) → Bool)
    (N : ℕ) (hN : 0 < N) (hd : (boundaryNodes G a.mapping.get?).card ∣ N) (han : Anchored G a.mapping.get?) (x0 : PlanState V P) (steps : ℤ)
    (ch : Chain Tape (PlanState V P)) (h : AtPlan ch a W steps) (v u : V) (hvu : (v, u) ∈ allowedPairs G a.mapping.get? W)
    (n L : ℕ) (hn : 0 < n) (hL : n * 2 ≤ L) :
    biStep N L G x0 steps ch n (moved a.mapping.get? v (a.mapping.get? u)) = 1 / (allowedMoves G a.mapping.get? W).card := by
  have h1 : ∀ v ∈ boundaryNodes G a.mapping.get?, (otherParts G a.mapping.get? v).card = 1 := fun v hv => otherParts_two hG htwo hv
  rw [C93_step G hG a ha hcov W N hN ⟨hd, fun v hv => by rw [h1 v hv]; exact one_dvd N⟩ han x0 steps ch h v u hvu n L hn hL,
    h1 v (Finset.mem_image_of_mem Prod.fst (Finset.mem_filter.1 hvu).1)]
  have : ∑ x ∈ allowedMoves G a.mapping.get? W, 1 / ((otherParts G a.mapping.get? x.1).card : ℚ) = (allowedMoves G a.mapping.get? W).card := by
    rw [Finset.sum_congr rfl (g := fun _ => (1 : ℚ))]
    · simp
    · intro x hx
      obtain ⟨y, hy, rfl⟩ := Finset.mem_image.1 hx
      rw [h1 y.1 (Finset.mem_image_of_mem Prod.fst (Finset.mem_filter.1 hy).1)]
      norm_num
  rw [this]
  norm_num

theorem flip_not_valueError {x : PlanState V P} (hc : x.plan.Coherent) (f : Dict V P) (hf : f.WF) : x.flip f ≠ .error .valueError := by
  intro h
  unfold PlanState.flip at h
  rcases hb : x.plan.flip f with e | b
  · rw [hb] at h
    cases h
    obtain ⟨he, -⟩ := (C03_flip_raises_iff x.plan hc f hf _).1 hb
    cases he
  · rw [hb] at h; cases h

/-- **C93 (exception)** The probability that the first proposal of a step raises `ValueError` is the proportion of the boundary nodes without a neighbour in their own
district; the chain ends with this exception. -/
theorem C93_value_error (G : Graph V) (hG : G.WF) (a : Assignment V P) (ha : a.Coherent) (hcov : a.Covers G.nodes) (W : (V → Option P) → Bool)
    (N : ℕ) (hN : 0 < N) (hd : Divides N G a.mapping.get?) (hne : (boundaryNodes G a.mapping.get?).Nonempty) (x0 : PlanState V P) (steps : ℤ)
    (ch : Chain Tape (PlanState V P)) (h : AtPlan ch a W steps) (L : ℕ) (hL : 2 ≤ L) [DecidablePred (fun r : Py (PlanState V P) => r = .error .valueError)] :
    stepProb N L (flipChain (biMove N G) alwaysAccept x0 steps) ch 1 (fun r => r = .error .valueError) =
      (((boundaryNodes G a.mapping.get?).filter (fun v => ∀ w ∈ G.neighbors v, a.mapping.get? w ≠ a.mapping.get? v)).card : ℚ) /
        (boundaryNodes G a.mapping.get?).card := by
  obtain ⟨k, hc, hk⟩ := h.counter
  have hD := draws_always (x0 := x0) (prop := biMove N G) h (draws_biMove N G ch.state)
  rw [stepProb_eq _ k hc, loop_value hD hN _ (k + 1) hk 1 L (by omega), Finset.sum_range_one, pow_zero, mul_one]
  have hs := h.state
  subst hs
  show avg N 2 (fun t => decidedAvg N 0 (flipChain (biMove N G) alwaysAccept x0 steps) ch (fun x => W x.plan.mapping.get?)
    (fun r => r = .error .valueError) (biMove N G ch.state t).1) = _
  rw [biMove_eq, avg_choice hN 1 _ (by rw [cutEnds_eq hG, Ne, ← List.length_eq_zero_iff, length_iter]; exact (Finset.card_pos.2 hne).ne')
    (by rw [cutEnds_eq hG, length_iter]; exact hd.nodes), length_iter, sum_over_iter, cutEnds_eq hG, Finset.card_filter]
  push_cast
  congr 1
  refine Finset.sum_congr rfl (fun v hv => ?_)
  obtain ⟨u, hu, -⟩ := (mem_boundaryNodes hG).1 hv
  obtain ⟨own, hown⟩ := covers_adj hG hcov _ _ hu
  rw [law_biNode hN hG hcov hown hv (hd.parts v hv)]
  by_cases ho : own ∈ nbrLabels G ch.state.plan v
  · obtain ⟨w, hw, hwo⟩ := (mem_nbrLabels hG).1 ho
    rw [if_pos ho, if_neg (fun hall => hall w ((Graph.mem_neighbors hG).2 hw) (hwo.trans hown.symm))]
    rw [List.map_congr_left (g := fun _ => (0 : ℚ))]
    · simp
    · intro p _
      unfold decidedAvg
      rw [avg_zero]
      rcases hf : ch.state.flip ⟨[(v, p)]⟩ with e | y
      · have : e ≠ .valueError := fun he => flip_not_valueError ha _ (one_wf v p) (he ▸ hf)
        simp [decided, this]
      · simp only [decided]
        split
        · show (if (Except.ok y : Py (PlanState V P)) = .error .valueError then (1 : ℚ) else 0) = 0
          simp
        · rfl
  · rw [if_neg ho, if_pos]
    · unfold decidedAvg
      rw [avg_zero]
      simp [decided]
    · intro w hw hwv
      exact ho ((mem_nbrLabels hG).2 ⟨w, (Graph.mem_neighbors hG).1 hw, hwv.trans hown⟩)

/-! ### Examples -/

/-- the path 0 - 1 - 2 - 3 - 4 with the additional edge 1 - 3 and, for the third district, the edges 1 - 5, 5 - 6 -/
def biGraph : Graph (Fin 7) := ⟨Finset.univ, {(0, 1), (1, 2), (1, 3), (2, 3), (3, 4), (1, 5), (5, 6)}⟩

/-- the districts {0, 1}, {2, 3, 4} and {5, 6} -/
def biA : Assignment (Fin 7) (Fin 3) := ⟨⟨[(0, {0, 1}), (1, {2, 3, 4}), (2, {5, 6})]⟩, ⟨[(0, 0), (1, 0), (2, 1), (3, 1), (4, 1), (5, 2), (6, 2)]⟩⟩

/-- the districts {0, 1, 2}, {3, 4} and {5, 6} -/
def biB : Assignment (Fin 7) (Fin 3) := ⟨⟨[(0, {0, 1, 2}), (1, {3, 4}), (2, {5, 6})]⟩, ⟨[(0, 0), (1, 0), (2, 0), (3, 1), (4, 1), (5, 2), (6, 2)]⟩⟩

theorem biGraph_wf : biGraph.WF := by constructor <;> decide +kernel

theorem bi_coherent : biA.Coherent ∧ biB.Coherent := by
  constructor <;>
    exact ⟨by unfold Dict.WF; decide, by unfold Dict.WF; decide, by decide +kernel, by decide +kernel⟩

/-- without constraints: moving node 2 has probability 1/4, moving node 1 to either of its two other districts 1/8 -/
theorem C93_not_uniform (n : ℕ) (hn : 0 < n) :
    biStep 4 (n * 2) biGraph ⟨biA, none⟩ 10 (chainAt biA (fun _ => true)) n biB.mapping.get? = 1 / 4 ∧
    biStep 4 (n * 2) biGraph ⟨biA, none⟩ 10 (chainAt biA (fun _ => true)) n (moved biA.mapping.get? 1 (some 2)) = 1 / 8 := by
  have hd : Divides 4 biGraph biA.mapping.get? := ⟨by decide +kernel, by decide +kernel⟩
  have han : Anchored biGraph biA.mapping.get? := by unfold Anchored; decide +kernel
  have hw : ∑ x ∈ allowedMoves biGraph biA.mapping.get? (fun _ => true), 1 / ((otherParts biGraph biA.mapping.get? x.1).card : ℚ) = 4 := by decide +kernel
  have c2 : (otherParts biGraph biA.mapping.get? 2).card = 1 := by decide +kernel
  have c1 : (otherParts biGraph biA.mapping.get? 1).card = 2 := by decide +kernel
  have e1 : biB.mapping.get? = moved biA.mapping.get? 2 (biA.mapping.get? 1) := by decide +kernel
  have e2 : (some 2 : Option (Fin 3)) = biA.mapping.get? 5 := by decide +kernel
  constructor
  · rw [e1, C93_step biGraph biGraph_wf biA bi_coherent.1 (by unfold Assignment.Covers; decide) (fun _ => true) 4 (by decide) hd han ⟨biA, none⟩ 10 _
      (chainAt_atPlan biA _) 2 1 (by decide +kernel) n (n * 2) hn le_rfl, hw, c2]
    norm_num
  · rw [e2, C93_step biGraph biGraph_wf biA bi_coherent.1 (by unfold Assignment.Covers; decide) (fun _ => true) 4 (by decide) hd han ⟨biA, none⟩ 10 _
      (chainAt_atPlan biA _) 1 5 (by decide +kernel) n (n * 2) hn le_rfl, hw, c1]
    norm_num

/-- flows between the two plans balance -/
example (n : ℕ) (hn : 0 < n) :
    (∑ x ∈ allowedMoves biGraph biA.mapping.get? (fun _ => true), 1 / ((otherParts biGraph biA.mapping.get? x.1).card : ℚ)) *
        biStep 4 (n * 2) biGraph ⟨biA, none⟩ 10 (chainAt biA (fun _ => true)) n biB.mapping.get? =
      (∑ x ∈ allowedMoves biGraph biB.mapping.get? (fun _ => true), 1 / ((otherParts biGraph biB.mapping.get? x.1).card : ℚ)) *
        biStep 4 (n * 2) biGraph ⟨biA, none⟩ 10 (chainAt biB (fun _ => true)) n biA.mapping.get? :=
  (C93_detailed_balance biGraph biGraph_wf biA biB bi_coherent.1 bi_coherent.2 (by unfold Assignment.Covers; decide) (by unfold Assignment.Covers; decide)
    (fun _ => true) rfl rfl 4 (by decide) ⟨by decide +kernel, by decide +kernel⟩ ⟨by decide +kernel, by decide +kernel⟩ (by unfold Anchored; decide +kernel)
    (by unfold Anchored; decide +kernel) ⟨biA, none⟩ 10 _ _ (chainAt_atPlan biA _) (chainAt_atPlan biB _) 2 1 3 (by decide) (by decide +kernel)
    (by decide +kernel) (by decide) (by decide) (by decide +kernel) n (n * 2) hn le_rfl).1

/-- both districts of the path have at least two nodes, district 0 on the left -/
def twoEach (m : Fin 5 → Option (Fin 2)) : Bool := decide (m 0 = some 0 ∧ m 1 = some 0 ∧ m 3 = some 1 ∧ m 4 = some 1)

/-- the path 0 - 1 - 2 - 3 - 4 -/
def biPath : Graph (Fin 5) := ⟨Finset.univ, {(0, 1), (1, 2), (2, 3), (3, 4)}⟩

/-- the districts {0, 1} and {2, 3, 4} -/
def biC : Assignment (Fin 5) (Fin 2) := ⟨⟨[(0, {0, 1}), (1, {2, 3, 4})]⟩, ⟨[(0, 0), (1, 0), (2, 1), (3, 1), (4, 1)]⟩⟩

/-- the districts {0, 1, 2} and {3, 4} -/
def biD : Assignment (Fin 5) (Fin 2) := ⟨⟨[(0, {0, 1, 2}), (1, {3, 4})]⟩, ⟨[(0, 0), (1, 0), (2, 0), (3, 1), (4, 1)]⟩⟩

theorem biPath_coherent : biC.Coherent ∧ biD.Coherent := by
  constructor <;>
    exact ⟨by unfold Dict.WF; decide, by unfold Dict.WF; decide, by decide +kernel, by decide +kernel⟩

/-- the assignment of a plan of the path -/
def biAsg (m : Fin 5 → Option (Fin 2)) : Assignment (Fin 5) (Fin 2) := if m 2 = some 1 then biC else biD

theorem bi_flipPlans : FlipPlans biPath twoEach {biC.mapping.get?, biD.mapping.get?} biAsg where
  coherent := by
    intro m hm
    unfold biAsg
    split
    · exact biPath_coherent.1
    · exact biPath_coherent.2
  mapping := by decide +kernel
  covers := by unfold Assignment.Covers; decide +kernel
  valid := by decide +kernel
  closed := by decide +kernel
  back := by decide +kernel

/-- a stationary distribution on the two plans of the path whose districts have at least two nodes -/
example (n : ℕ) (hn : 0 < n) (b : Fin 5 → Option (Fin 2)) (hb : b ∈ ({biC.mapping.get?, biD.mapping.get?} : Finset _)) :
    ∑ m ∈ ({biC.mapping.get?, biD.mapping.get?} : Finset _), (∑ x ∈ allowedMoves biPath m twoEach, 1 / ((otherParts biPath m x.1).card : ℚ)) *
      biStep 2 (n * 2) biPath ⟨biC, none⟩ 10 (chainAt (biAsg m) twoEach) n b = ∑ x ∈ allowedMoves biPath b twoEach, 1 / ((otherParts biPath b x.1).card : ℚ) := by
  have hd : ∀ m ∈ ({biC.mapping.get?, biD.mapping.get?} : Finset _), (boundaryNodes biPath m).card ∣ 2 ∧ ∀ v ∈ boundaryNodes biPath m, (otherParts biPath m v).card ∣ 2 := by
    decide +kernel
  exact C93_stationary biPath (by constructor <;> decide) twoEach _ biAsg bi_flipPlans 2 (by decide) (fun m hm => ⟨(hd m hm).1, (hd m hm).2⟩)
    (by unfold Anchored; decide +kernel) ⟨biC, none⟩ 10 _ (fun m _ => chainAt_atPlan (biAsg m) twoEach) n (n * 2) hn le_rfl b hb

/-- with two districts: from {0, 1} | {2, 3, 4} both nodes of the boundary are moved with probability 1/2 -/
example (n : ℕ) (hn : 0 < n) : biStep 2 (n * 2) biPath ⟨biC, none⟩ 10 (chainAt biC (fun _ => true)) n biD.mapping.get? = 1 / 2 := by
  have e : biD.mapping.get? = moved biC.mapping.get? 2 (biC.mapping.get? 1) := by decide +kernel
  have c : (allowedMoves biPath biC.mapping.get? (fun _ => true)).card = 2 := by decide +kernel
  rw [e, C93_two_districts biPath (by constructor <;> decide) biC biPath_coherent.1 (by unfold Assignment.Covers; decide) 0 1 (by decide +kernel) (fun _ => true) 2
    (by decide) (by decide +kernel) (by unfold Anchored; decide +kernel) ⟨biC, none⟩ 10 _ (chainAt_atPlan biC _) 2 1 (by decide +kernel) n (n * 2) hn le_rfl, c]
  norm_num

/-- {0} | {1, 2, 3} on the path with four nodes: the step raises `ValueError` with probability 1/2, when node 0 is chosen -/
theorem C93_value_error_example [DecidablePred (fun r : Py (PlanState (Fin 4) (Fin 2)) => r = .error .valueError)] :
    stepProb 2 2 (flipChain (biMove 2 walkPath) alwaysAccept ⟨walkA, none⟩ 10) (chainAt walkA noneEmpty) 1 (fun r => r = .error .valueError) = 1 / 2 := by
  have h1 : (boundaryNodes walkPath walkA.mapping.get?).card = 2 := by decide +kernel
  have h2 : ((boundaryNodes walkPath walkA.mapping.get?).filter (fun v => ∀ w ∈ walkPath.neighbors v, walkA.mapping.get? w ≠ walkA.mapping.get? v)).card = 1 := by
    decide +kernel
  rw [C93_value_error walkPath (by constructor <;> decide) walkA walk_coherent.1 (by unfold Assignment.Covers; decide) noneEmpty 2 (by decide)
    ⟨by decide +kernel, by decide +kernel⟩ (by decide +kernel) ⟨walkA, none⟩ 10 _ (chainAt_atPlan walkA noneEmpty) 2 le_rfl, h1]
  refine (congrArg (fun k : ℕ => (k : ℚ) / (2 : ℕ)) (?_ : _ = 1)).trans (by norm_num)
  convert h2

end GC

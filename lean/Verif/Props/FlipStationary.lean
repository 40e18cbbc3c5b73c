import Verif.Props.FlipWalk

/-!
# The stationary distribution of chains of flips (C76)
-/

set_option linter.unusedSectionVars false
set_option autoImplicit false

namespace GC

variable {V P : Type} [LinearOrder V] [LinearOrder P]

/-- a plan that cannot be reached by an allowed move has probability 0 -/
theorem slowStep_zero {G : Graph V} (hG : G.WF) {a : Assignment V P} (ha : a.Coherent) (hcov : a.Covers G.nodes) {W : (V → Option P) → Bool}
    {N : ℕ} (hN : 0 < N) (hd : (allowedMoves G a.mapping.get? (fun _ => true)).card ∣ N) {x0 : PlanState V P} {steps : ℤ}
    {ch : Chain Tape (PlanState V P)} (h : AtPlan ch a W steps) {b : V → Option P}
    (hex : (allowedMoves G a.mapping.get? W).Nonempty)
    (hb : ∀ x ∈ allowedMoves G a.mapping.get? W, moved a.mapping.get? x.1 x.2 ≠ b) (n L : ℕ) (hL : n ≤ L) :
    slowStep N L G x0 steps ch n b = 0 := by
  obtain ⟨⟨v, o⟩, hvo⟩ := hex
  obtain ⟨⟨v', u⟩, hvu, he⟩ := Finset.mem_image.1 hvo
  cases he
  obtain ⟨q, hq, hmem, hW, hp, hcount⟩ := slow_setup hG hcov hN hd h.state hvu
  obtain ⟨k, hc, hk⟩ := h.counter
  have hD := draws_always (x0 := x0) h hp.draws
  unfold slowStep
  rw [C75_retry (flipChain (slowMove N G) alwaysAccept x0 steps) ch _ 1 0 hD N hN _ k hc hk n L 1 (by omega) le_rfl,
    step_law (c := flipChain (slowMove N G) alwaysAccept x0 steps) hp hD hN _ k hc hk 1 le_rfl]
  have hz : ∀ f ∈ flipPairs a (cutsOf G a.mapping), decidedAvg N 0 (flipChain (slowMove N G) alwaysAccept x0 steps) ch (fun x => W x.plan.mapping.get?)
      (Arrives b) (ch.state.flip ⟨[f]⟩) = 0 := by
    intro f hf
    have hcan := (mem_flipPairs hG hcov).1 hf
    obtain ⟨b', hb', hm⟩ := state_flip hG ha hcov h hcan
    unfold decidedAvg
    rw [avg_zero, hb']
    simp only [decided, hm]
    split
    · rename_i hWf
      show (if Arrives _ _ then (1 : ℚ) else 0) = 0
      rw [if_neg]
      rintro ⟨y, hy, hx⟩
      cases hy
      refine hb (f.1, some f.2) ((mem_allowedMoves hG hcov).2 ⟨f.2, rfl, hcan, hWf⟩) ?_
      rw [← hm]
      exact funext hx
    · rfl
  rw [List.map_congr_left (g := fun _ => (0 : ℚ)) hz]
  simp

/-- the plans of a chain of flips: all nodes labelled, with the constraints satisfied, and represented by assignments -/
structure FlipPlans (G : Graph V) (W : (V → Option P) → Bool) (S : Finset (V → Option P)) (asg : (V → Option P) → Assignment V P) : Prop where
  coherent : ∀ m ∈ S, (asg m).Coherent
  mapping : ∀ m ∈ S, (asg m).mapping.get? = m
  covers : ∀ m ∈ S, (asg m).Covers G.nodes
  valid : ∀ m ∈ S, W m = true
  /-- the plans are closed under allowed moves -/
  closed : ∀ m ∈ S, ∀ x ∈ allowedPairs G m W, moved m x.1 (m x.2) ∈ S
  /-- a node that may be moved is not alone in its district: it has another neighbour there -/
  back : ∀ m ∈ S, ∀ x ∈ allowedPairs G m W, ∃ w, w ≠ x.1 ∧ G.Adj x.1 w ∧ m w = m x.1

/-- going back -/
theorem allowed_back {G : Graph V} (hG : G.WF) {W : (V → Option P) → Bool} {m : V → Option P} (hW : W m = true) {v u w : V}
    (hvu : (v, u) ∈ cutPairs G m) (hwv : w ≠ v) (hw : G.Adj v w) (hmw : m w = m v) :
    (v, w) ∈ allowedPairs G (moved m v (m u)) W ∧ moved (moved m v (m u)) v (moved m v (m u) w) = m := by
  obtain ⟨hadj, hne⟩ := (mem_cutPairs hG).1 hvu
  have h1 : moved m v (m u) w = m v := by unfold moved; rw [if_neg hwv, hmw]
  have h2 : moved (moved m v (m u)) v (moved m v (m u) w) = m := by
    funext x
    rw [h1]
    unfold moved
    by_cases hx : x = v
    · rw [if_pos hx, hx]
    · rw [if_neg hx, if_neg hx]
  refine ⟨Finset.mem_filter.2 ⟨(mem_cutPairs hG).2 ⟨hw, ?_⟩, ?_⟩, h2⟩
  · show moved m v (m u) v ≠ moved m v (m u) w
    rw [h1]
    unfold moved
    rw [if_pos rfl]
    exact fun h => hne h.symm
  · show W (moved (moved m v (m u)) v (moved m v (m u) w)) = true
    rw [h2]
    exact hW

/-- **C76 (stationary)** Under constraints that keep districts so connected that a node which may be moved has another neighbour in its district: the
distribution that gives each plan a weight equal to its number of allowed moves is stationary for `slow_reversible_propose` with `always_accept`. -/
theorem C76_stationary (G : Graph V) (hG : G.WF) (W : (V → Option P) → Bool) (S : Finset (V → Option P)) (asg : (V → Option P) → Assignment V P)
    (hS : FlipPlans G W S asg) (N : ℕ) (hN : 0 < N) (hd : ∀ m ∈ S, (allowedMoves G m (fun _ => true)).card ∣ N) (x0 : PlanState V P) (steps : ℤ)
    (ch : (V → Option P) → Chain Tape (PlanState V P)) (hch : ∀ m ∈ S, AtPlan (ch m) (asg m) W steps) (n L : ℕ) (hn : 0 < n) (hL : n ≤ L)
    (b : V → Option P) (hb : b ∈ S) :
    ∑ m ∈ S, ((allowedMoves G m W).card : ℚ) * slowStep N L G x0 steps (ch m) n b = (allowedMoves G b W).card := by
  classical
  have hterm : ∀ m ∈ S, ((allowedMoves G m W).card : ℚ) * slowStep N L G x0 steps (ch m) n b =
      if ∃ x ∈ allowedMoves G m W, moved m x.1 x.2 = b then 1 else 0 := by
    intro m hm
    have hmap := hS.mapping m hm
    have hdm : (allowedMoves G (asg m).mapping.get? (fun _ => true)).card ∣ N := by rw [hmap]; exact hd m hm
    by_cases hex : ∃ x ∈ allowedMoves G m W, moved m x.1 x.2 = b
    · rw [if_pos hex]
      obtain ⟨x, hx, hxb⟩ := hex
      obtain ⟨⟨v, u⟩, hvu, rfl⟩ := Finset.mem_image.1 hx
      have hstep := C76_uniform_step G hG (asg m) (hS.coherent m hm) (hS.covers m hm) W N hN hdm x0 steps (ch m) (hch m hm) v u
        (by rw [hmap]; exact hvu) n L hn hL
      rw [hmap] at hstep
      unfold slowStep
      rw [← hxb]
      dsimp only
      rw [hstep]
      have : (0 : ℚ) < (allowedMoves G m W).card := by exact_mod_cast Finset.card_pos.2 ⟨_, hx⟩
      exact mul_one_div_cancel this.ne'
    · rw [if_neg hex]
      rcases (allowedMoves G m W).eq_empty_or_nonempty with h0 | h0
      · rw [h0]; simp
      · rw [slowStep_zero hG (hS.coherent m hm) (hS.covers m hm) hN hdm (hch m hm) (by rw [hmap]; exact h0)
          (by rw [hmap]; exact fun x hx he => hex ⟨x, hx, he⟩) n L hL, mul_zero]
  rw [Finset.sum_congr rfl hterm, ← Finset.sum_filter, Finset.sum_const, nsmul_eq_mul, mul_one]
  norm_cast
  symm
  refine Finset.card_bij (fun x _ => moved b x.1 x.2) ?_ ?_ ?_
  · intro x hx
    obtain ⟨⟨v, u⟩, hvu, rfl⟩ := Finset.mem_image.1 hx
    obtain ⟨w, hwv, hw, hbw⟩ := hS.back b hb _ hvu
    obtain ⟨h1, h2⟩ := allowed_back hG (hS.valid b hb) (Finset.mem_filter.1 hvu).1 hwv hw hbw
    exact Finset.mem_filter.2 ⟨hS.closed b hb _ hvu, _, Finset.mem_image_of_mem _ h1, h2⟩
  · intro x hx y hy hxy
    obtain ⟨⟨v, u⟩, hvu, rfl⟩ := Finset.mem_image.1 hx
    obtain ⟨⟨v', u'⟩, hvu', rfl⟩ := Finset.mem_image.1 hy
    have n1 := ((mem_cutPairs hG).1 (Finset.mem_filter.1 hvu).1).2
    have n2 := ((mem_cutPairs hG).1 (Finset.mem_filter.1 hvu').1).2
    obtain ⟨e1, e2⟩ := moved_inj n1 n2 hxy
    exact Prod.ext e1 e2
  · intro m hm
    obtain ⟨hmS, x, hx, hxb⟩ := Finset.mem_filter.1 hm
    obtain ⟨⟨v, u⟩, hvu, rfl⟩ := Finset.mem_image.1 hx
    obtain ⟨w, hwv, hw, hmw⟩ := hS.back m hmS _ hvu
    obtain ⟨h1, h2⟩ := allowed_back hG (hS.valid m hmS) (Finset.mem_filter.1 hvu).1 hwv hw hmw
    dsimp only at hxb
    rw [hxb] at h1 h2
    exact ⟨(v, b w), Finset.mem_image_of_mem _ h1, h2⟩

/-! ### The example of the path -/

/-- the plans of the path with two nonempty contiguous districts and district 0 on the left -/
def walkC : Assignment (Fin 4) (Fin 2) := ⟨⟨[(0, {0, 1, 2}), (1, {3})]⟩, ⟨[(0, 0), (1, 0), (2, 0), (3, 1)]⟩⟩

/-- the assignment of a plan of the path -/
def walkAsg (m : Fin 4 → Option (Fin 2)) : Assignment (Fin 4) (Fin 2) :=
  if m 1 = some 1 then walkA else if m 2 = some 1 then walkB else walkC

/-- the three plans -/
def walkPlans : Finset (Fin 4 → Option (Fin 2)) := {walkA.mapping.get?, walkB.mapping.get?, walkC.mapping.get?}

theorem walkC_coherent : walkC.Coherent := ⟨by unfold Dict.WF; decide, by unfold Dict.WF; decide, by decide, by decide⟩

theorem walk_flipPlans : FlipPlans walkPath noneEmpty walkPlans walkAsg where
  coherent := by
    intro m hm
    unfold walkAsg
    split
    · exact walk_coherent.1
    · split
      · exact walk_coherent.2
      · exact walkC_coherent
  mapping := by decide +kernel
  covers := by unfold Assignment.Covers; decide +kernel
  valid := by decide +kernel
  closed := by decide +kernel
  back := by decide +kernel

/-- the chain on the path: weights 1, 2, 1 -/
example (n : ℕ) (hn : 0 < n) (b : Fin 4 → Option (Fin 2)) (hb : b ∈ walkPlans) :
    ∑ m ∈ walkPlans, ((allowedMoves walkPath m noneEmpty).card : ℚ) *
      slowStep 2 n walkPath ⟨walkA, none⟩ 10 (chainAt (walkAsg m) noneEmpty) n b = (allowedMoves walkPath b noneEmpty).card :=
  C76_stationary walkPath (by constructor <;> decide) noneEmpty walkPlans walkAsg walk_flipPlans 2 (by decide) (by decide +kernel) _ 10 _
    (fun m _ => chainAt_atPlan (walkAsg m) noneEmpty) n n hn le_rfl b hb

example : walkPlans.card = 3 ∧ (allowedMoves walkPath walkA.mapping.get? noneEmpty).card = 1 ∧ (allowedMoves walkPath walkB.mapping.get? noneEmpty).card = 2 ∧
    (allowedMoves walkPath walkC.mapping.get? noneEmpty).card = 1 := by decide +kernel

end GC

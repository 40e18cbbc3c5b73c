import Verif.Model.FlipWalk
import Verif.Props.Retry
import Verif.Props.Metagraph
import Verif.Props.DetailedBalance

/-!
# Chains of flips (C76, C77)
-/

set_option linter.unusedSectionVars false
set_option autoImplicit false

namespace GC

variable {V P : Type} [LinearOrder V] [LinearOrder P]

/-- the plan `m` with `v` moved to the district `o` -/
def moved (m : V → Option P) (v : V) (o : Option P) : V → Option P := fun x => if x = v then o else m x

/-- the ordered pairs of adjacent nodes in different districts -/
def cutPairs (G : Graph V) (m : V → Option P) : Finset (V × V) :=
  (G.nodes ×ˢ G.nodes).filter (fun x => G.Adj x.1 x.2 ∧ m x.1 ≠ m x.2)

/-- those for which moving the first node to the district of the second gives a plan that satisfies the constraints `W` -/
def allowedPairs (G : Graph V) (m : V → Option P) (W : (V → Option P) → Bool) : Finset (V × V) :=
  (cutPairs G m).filter (fun x => W (moved m x.1 (m x.2)) = true)

/-- the moves (node, new district) to a neighbouring district that give a plan satisfying the constraints `W` -/
def allowedMoves (G : Graph V) (m : V → Option P) (W : (V → Option P) → Bool) : Finset (V × Option P) :=
  (allowedPairs G m W).image (fun x => (x.1, m x.2))

/-- the step ends in the plan `b` -/
def Arrives (b : V → Option P) (r : Py (PlanState V P)) : Prop := ∃ y, r = .ok y ∧ ∀ x, y.plan.mapping.get? x = b x

noncomputable instance (b : V → Option P) : DecidablePred (Arrives (P := P) b) := Classical.decPred _

theorem flip_can {G : Graph V} (hG : G.WF) {a : Assignment V P} (ha : a.Coherent) (hcov : a.Covers G.nodes) {v : V} {q : P}
    (h : CanMove G a.mapping v q) : ∃ b, a.flip ⟨[(v, q)]⟩ = .ok b ∧ ∀ x, b.mapping.get? x = moved a.mapping.get? v (some q) x := by
  obtain ⟨⟨p, hp, hpq⟩, u, hadj, hu⟩ := h
  rcases hc : a.flip ⟨[(v, q)]⟩ with e | c
  · exfalso
    obtain ⟨-, hbad⟩ := (C03_flip_raises_iff a ha _ (one_wf v q) e).1 hc
    rcases hbad with ⟨x, hx, hx'⟩ | ⟨x, hx, hx'⟩
    · simp only [Dict.keys, List.map_cons, List.map_nil, List.mem_singleton] at hx
      subst hx
      exact hx' (Dict.mem_keys_iff.2 ⟨p, hp⟩)
    · simp only [Dict.values, List.map_cons, List.map_nil, List.mem_singleton] at hx
      subst hx
      exact hx' (ha.complete _ _ hu)
  · exact ⟨c, rfl, movedTo_of_flip ha hc⟩

/-- Moves by one node give different plans. -/
theorem moved_inj {m : V → Option P} {v w : V} {o o' : Option P} (h : m v ≠ o) (h' : m w ≠ o') (he : moved m v o = moved m w o') : v = w ∧ o = o' := by
  have h1 := congrFun he v
  have h2 := congrFun he w
  unfold moved at h1 h2
  rw [if_pos rfl] at h1 h2
  by_cases hvw : v = w
  · subst hvw
    rw [if_pos rfl] at h1
    exact ⟨rfl, h1⟩
  · rw [if_neg hvw] at h1
    exact absurd h1.symm h

theorem mem_cutPairs {G : Graph V} (hG : G.WF) {m : V → Option P} {x : V × V} : x ∈ cutPairs G m ↔ G.Adj x.1 x.2 ∧ m x.1 ≠ m x.2 := by
  unfold cutPairs
  rw [Finset.mem_filter, Finset.mem_product]
  constructor
  · exact fun h => h.2
  · exact fun h => ⟨⟨(hG.mem_of_adj h.1).1, (hG.mem_of_adj h.1).2⟩, h⟩

/-! ### A uniform choice from a list of moves -/

/-- The proposal picks a move from the list `l` (with repetitions) uniformly at random, drawing at most `k` numbers. -/
structure Picks (N k : ℕ) (m : M Tape (PlanState V P)) (x : PlanState V P) (l : List (V × P)) : Prop where
  draws : Draws k m
  law : ∀ (g : Py (PlanState V P) → ℚ) (L : ℕ), k ≤ L → avg N L (fun t => g (m t).1) = (l.map (fun f => g (x.flip ⟨[f]⟩))).sum / l.length

theorem slow_picks {N : ℕ} (hN : 0 < N) (G : Graph V) (x : PlanState V P) (hne : flipPairs x.plan (cutsOf G x.plan.mapping) ≠ [])
    (hd : (flipPairs x.plan (cutsOf G x.plan.mapping)).length ∣ N) :
    Picks N 1 (slowMove N G x) x (flipPairs x.plan (cutsOf G x.plan.mapping)) := by
  have he : slowMove N G x = (uniRand N).choice (flipPairs x.plan (cutsOf G x.plan.mapping)) >>= fun f => M.lift (x.flip ⟨[f]⟩) := by
    unfold slowMove slowFlip
    rw [M.bind_assoc']
    rfl
  constructor
  · rw [he]
    exact (draws_choice N _).bind (j := 0) (fun _ => draws_lift 0 _)
  · intro g L hL
    obtain ⟨L, rfl⟩ : ∃ L', L = L' + 1 := ⟨L - 1, by omega⟩
    rw [he, avg_choice hN L _ hne hd]
    congr 2
    refine List.map_congr_left (fun f _ => ?_)
    exact avg_const hN L (g (x.flip ⟨[f]⟩))

/-- the ends of the cut edges, in both orders -/
def orderedCuts (C : Finset (V × V)) : List (V × V) := (iterE C).flatMap (fun e => [(e.1, e.2), (e.2, e.1)])

theorem sum_flatMap_two {α β : Type} (l : List α) (f g : α → β) (φ : β → ℚ) :
    ((l.flatMap (fun e => [f e, g e])).map φ).sum = (l.map (fun e => φ (f e) + φ (g e))).sum := by
  induction l with
  | nil => rfl
  | cons x l ih =>
    rw [List.flatMap_cons, List.map_append, List.sum_append, ih]
    simp

theorem sum_map_half {α : Type} (l : List α) (φ : α → ℚ) : (l.map (fun e => φ e / 2)).sum = (l.map φ).sum / 2 := by
  induction l with
  | nil => simp
  | cons x l ih =>
    rw [List.map_cons, List.sum_cons, ih, List.map_cons, List.sum_cons, add_div]

theorem random_picks {N : ℕ} (hN : 0 < N) {G : Graph V} (hG : G.WF) (x : PlanState V P) (hcov : x.plan.Covers G.nodes)
    (hne : (cutsOf G x.plan.mapping).Nonempty) (hd : (cutsOf G x.plan.mapping).card ∣ N) (h2 : 2 ∣ N) :
    ∃ l : List (V × P), Picks N 2 (randomMove N G x) x l ∧ l.length = 2 * (cutsOf G x.plan.mapping).card ∧
      l.map (fun f => (f.1, some f.2)) = (orderedCuts (cutsOf G x.plan.mapping)).map (fun y => (y.1, x.plan.mapping.get? y.2)) := by
  obtain ⟨l, -, hl⟩ := allCutEdgeFlips_ok hG hcov
  have hl' : l.map (fun f => (f.1, some f.2)) = (orderedCuts (cutsOf G x.plan.mapping)).map (fun y => (y.1, x.plan.mapping.get? y.2)) := by
    rw [hl]
    unfold orderedCuts
    rw [List.map_flatMap]
    rfl
  have hlen : l.length = 2 * (cutsOf G x.plan.mapping).card := by
    have := congrArg List.length hl
    rw [List.length_map, List.length_flatMap] at this
    rw [this]
    simp only [List.length_cons, List.length_nil, zero_add, List.map_const', List.sum_replicate, smul_eq_mul, length_iterE]
    ring
  refine ⟨l, ⟨?_, ?_⟩, hlen, hl'⟩
  · unfold randomMove randomFlip
    rw [if_neg hne.ne_empty]
    refine Draws.bind (k := 2) (j := 0) ?_ (fun f => ?_)
    · refine Draws.bind (k := 1) (j := 1) (draws_choice N _) (fun e => ?_)
      refine Draws.bind (k := 1) (j := 0) ?_ (fun y => ?_)
      · exact (draws_choice N _).bind (j := 0) (fun _ => draws_pure 0 _)
      · exact (draws_lift 0 _).bind (j := 0) (fun _ => draws_pure 0 _)
    · cases f with
      | none => exact draws_pure 0 _
      | some f => exact draws_lift 0 _
  · intro g L hL
    obtain ⟨L, rfl⟩ : ∃ L', L = L' + 1 + 1 := ⟨L - 2, by omega⟩
    -- the move for an ordered pair of ends
    set mv : V × V → M Tape (PlanState V P) := fun y => M.lift (do
      let p ← x.plan.mapping.get y.2
      x.flip ⟨[(y.1, p)]⟩) with hmv
    have he : randomMove N G x = (uniRand N).choice (iterE (cutsOf G x.plan.mapping)) >>= fun e =>
        (uniRand N).choice [(0 : ℕ), 1] >>= fun i => mv (if i = 0 then e else (e.2, e.1)) := by
      unfold randomMove randomFlip chooseEnd
      rw [if_neg hne.ne_empty]
      simp only [M.bind_assoc']
      refine congrArg _ (funext fun e => ?_)
      refine congrArg _ (funext fun i => ?_)
      funext s
      rw [hmv]
      generalize (if i = 0 then e else (e.2, e.1)) = y
      show M.bind (M.lift (x.plan.mapping.get y.2)) _ s = _
      unfold M.bind M.lift
      beta_reduce
      cases hq : x.plan.mapping.get y.2 <;> rfl
    rw [he, avg_choice hN (L + 1) _ (by rw [Ne, ← List.length_eq_zero_iff, length_iterE]; exact (Finset.card_pos.2 hne).ne') (by rw [length_iterE]; exact hd)]
    have hinner : ∀ e : V × V, avg N (L + 1) (fun t => g (((uniRand N).choice [(0 : ℕ), 1] >>= fun i => mv (if i = 0 then e else (e.2, e.1))) t).1) =
        (g (mv (e.1, e.2) []).1 + g (mv (e.2, e.1) []).1) / 2 := by
      intro e
      rw [avg_choice hN L [(0 : ℕ), 1] (by simp) h2]
      have hc : ∀ y, avg N L (fun t => g (mv y t).1) = g (mv y []).1 := fun y => avg_const hN L (g (mv y []).1)
      simp only [hc, List.map_cons, List.map_nil, List.sum_cons, List.sum_nil, if_true, add_zero, List.length_cons, List.length_nil]
      norm_num
    simp only [hinner]
    have hsum : (l.map (fun f => g (x.flip ⟨[f]⟩))).sum = ((orderedCuts (cutsOf G x.plan.mapping)).map (fun y => g (mv y []).1)).sum := by
      congr 1
      have h3 : l.map (fun f => g (x.flip ⟨[f]⟩)) = (l.map (fun f => (f.1, some f.2))).map (fun z => match z.2 with
          | some q => g (x.flip ⟨[(z.1, q)]⟩)
          | none => g (.error .keyError)) := by
        rw [List.map_map]; rfl
      rw [h3, hl', List.map_map]
      refine List.map_congr_left (fun y _ => ?_)
      simp only [Function.comp, hmv, M.lift]
      cases hq : x.plan.mapping.get? y.2 with
      | none =>
        have : x.plan.mapping.get y.2 = .error .keyError := by unfold Dict.get; rw [hq]
        rw [this]; rfl
      | some q =>
        rw [Dict.get_eq_ok_iff.2 hq]; rfl
    rw [hsum, hlen, length_iterE]
    unfold orderedCuts
    rw [sum_flatMap_two (iterE (cutsOf G x.plan.mapping)) (fun e => (e.1, e.2)) (fun e => (e.2, e.1))]
    have h4 : ((iterE (cutsOf G x.plan.mapping)).map (fun e => (g (mv (e.1, e.2) []).1 + g (mv (e.2, e.1) []).1) / 2)).sum =
        ((iterE (cutsOf G x.plan.mapping)).map (fun e => g (mv (e.1, e.2) []).1 + g (mv (e.2, e.1) []).1)).sum / 2 := by
      exact sum_map_half _ _
    rw [h4]
    push_cast
    rw [div_div]

/-! ### One step of the chain -/

section
variable {c : ChainCfg Tape (PlanState V P)} {ch : Chain Tape (PlanState V P)} {valid : PlanState V P → Bool} {d e N : ℕ} {l : List (V × P)}

theorem step_law (hp : Picks N d (c.proposal ch.state) ch.state l) (h : DrawsOnly c ch valid d e) (hN : 0 < N) (E : Py (PlanState V P) → Prop)
    [DecidablePred E] (k : ℕ) (hc : ch.counter = some (k + 1)) (hk : ((k + 1 : ℕ) : ℤ) < c.totalSteps) (L : ℕ) (hL : d + e ≤ L) :
    stepProb N L c ch 1 E = (l.map (fun f => decidedAvg N e c ch valid E (ch.state.flip ⟨[f]⟩))).sum / l.length := by
  rw [stepProb_eq E k hc, loop_value h hN E (k + 1) hk 1 L (by omega), Finset.sum_range_one, pow_zero, mul_one, hp.law _ d le_rfl]

theorem invalid_law (hp : Picks N d (c.proposal ch.state) ch.state l) (L : ℕ) (hL : d ≤ L) :
    invalidProb N L c ch valid = (l.map (fun f => if refused valid (ch.state.flip ⟨[f]⟩) = true then (1 : ℚ) else 0)).sum / l.length :=
  hp.law (fun r => if refused valid r = true then 1 else 0) L hL

end

/-- The chain is in the plan `a`, has steps left, and its constraints together are the condition `W` on the plan. -/
structure AtPlan (ch : Chain Tape (PlanState V P)) (a : Assignment V P) (W : (V → Option P) → Bool) (steps : ℤ) : Prop where
  state : ch.state.plan = a
  valid : ∀ x t, validator x ch.isValid t = (.ok (W x.plan.mapping.get?), t)
  counter : ∃ k, ch.counter = some (k + 1) ∧ ((k + 1 : ℕ) : ℤ) < steps

section
variable {G : Graph V} {a : Assignment V P} {W : (V → Option P) → Bool} {ch : Chain Tape (PlanState V P)} {x0 : PlanState V P} {steps : ℤ}
  {N d : ℕ} {l : List (V × P)} {prop : PlanState V P → M Tape (PlanState V P)}

theorem state_flip (hG : G.WF) (ha : a.Coherent) (hcov : a.Covers G.nodes) (h : AtPlan ch a W steps) {f : V × P} (hf : CanMove G a.mapping f.1 f.2) :
    ∃ b, ch.state.flip ⟨[f]⟩ = .ok ⟨b, some a⟩ ∧ b.mapping.get? = moved a.mapping.get? f.1 (some f.2) := by
  obtain ⟨b, hb, hm⟩ := flip_can hG ha hcov hf
  refine ⟨b, ?_, funext hm⟩
  unfold PlanState.flip
  rw [h.state, hb]
  rfl

theorem draws_always (h : AtPlan ch a W steps) (hd : Draws d (prop ch.state)) :
    DrawsOnly (flipChain prop alwaysAccept x0 steps) ch (fun x => W x.plan.mapping.get?) d 0 :=
  ⟨fun _ _ => rfl, h.valid, hd, fun _ => draws_pure 0 true⟩

theorem ne_of_canMove {v : V} {q : P} (h : CanMove G a.mapping v q) : a.mapping.get? v ≠ some q := by
  obtain ⟨⟨p, hp, hpq⟩, -⟩ := h
  rw [hp]
  intro h
  exact hpq (Option.some.inj h)

theorem always_value (hG : G.WF) (ha : a.Coherent) (hcov : a.Covers G.nodes) (h : AtPlan ch a W steps) {v : V} {q : P} (hvq : CanMove G a.mapping v q)
    (hW : W (moved a.mapping.get? v (some q)) = true) {f : V × P} (hf : CanMove G a.mapping f.1 f.2) :
    decidedAvg N 0 (flipChain prop alwaysAccept x0 steps) ch (fun x => W x.plan.mapping.get?) (Arrives (moved a.mapping.get? v (some q)))
      (ch.state.flip ⟨[f]⟩) = if f = (v, q) then 1 else 0 := by
  obtain ⟨b, hb, hm⟩ := state_flip hG ha hcov h hf
  unfold decidedAvg
  rw [avg_zero, hb]
  simp only [decided, hm]
  by_cases hfv : f = (v, q)
  · subst hfv
    rw [if_pos hW, if_pos rfl]
    show (if Arrives _ _ then (1 : ℚ) else 0) = 1
    rw [if_pos ⟨_, rfl, fun x => congrFun hm x⟩]
  · rw [if_neg hfv]
    have hno : ¬ Arrives (moved a.mapping.get? v (some q)) (.ok ⟨b, some a⟩) := by
      rintro ⟨y, hy, hx⟩
      cases hy
      obtain ⟨h1, h2⟩ := moved_inj (ne_of_canMove hf) (ne_of_canMove hvq) (hm ▸ funext hx)
      exact hfv (Prod.ext h1 (Option.some.inj h2))
    split
    · show (if Arrives _ _ then (1 : ℚ) else 0) = 0
      rw [if_neg hno]
    · rfl

theorem sum_ite_count (l : List (V × P)) (x : V × P) : (l.map (fun f => if f = x then (1 : ℚ) else 0)).sum = l.count x := by
  induction l with
  | nil => simp
  | cons y l ih =>
    rw [List.map_cons, List.sum_cons, ih, List.count_cons]
    by_cases h : y = x
    · simp [h]; ring
    · simp [h]

theorem sum_ite_filter {α : Type} (l : List α) (p : α → Bool) : (l.map (fun f => if p f = true then (1 : ℚ) else 0)).sum = (l.filter p).length := by
  induction l with
  | nil => simp
  | cons y l ih =>
    rw [List.map_cons, List.sum_cons, ih, List.filter_cons]
    by_cases h : p y = true
    · simp [h]; ring
    · simp [h]

theorem filter_not_length {α : Type} (l : List α) (p : α → Bool) : ((l.filter (fun x => !p x)).length : ℚ) = l.length - (l.filter p).length := by
  have : l.length = (l.filter p).length + (l.filter (fun x => !p x)).length := List.length_eq_length_filter_add p
  rw [this]
  push_cast
  ring

/-- a chain with `always_accept` whose proposal picks from a list of moves -/
theorem walk_conditional (hG : G.WF) (ha : a.Coherent) (hcov : a.Covers G.nodes) (h : AtPlan ch a W steps) (hN : 0 < N)
    (hp : Picks N d (prop ch.state) ch.state l) (hl : ∀ f ∈ l, CanMove G a.mapping f.1 f.2) {v : V} {q : P} (hvq : (v, q) ∈ l)
    (hW : W (moved a.mapping.get? v (some q)) = true) :
    (∀ L, d ≤ L → stepProb N L (flipChain prop alwaysAccept x0 steps) ch 1 (Arrives (moved a.mapping.get? v (some q))) = l.count (v, q) / l.length) ∧
    (∀ L, d ≤ L → invalidProb N L (flipChain prop alwaysAccept x0 steps) ch (fun x => W x.plan.mapping.get?) =
      1 - ((l.filter (fun f => W (moved a.mapping.get? f.1 (some f.2)))).length : ℚ) / l.length) ∧
    0 < (l.filter (fun f => W (moved a.mapping.get? f.1 (some f.2)))).length := by
  obtain ⟨k, hc, hk⟩ := h.counter
  have hlen : (l.length : ℚ) ≠ 0 := by
    have : 0 < l.length := List.length_pos_of_mem hvq
    exact_mod_cast this.ne'
  refine ⟨fun L hL => ?_, fun L hL => ?_, List.length_pos_of_mem (List.mem_filter.2 ⟨hvq, hW⟩)⟩
  · rw [step_law (c := flipChain prop alwaysAccept x0 steps) hp (draws_always h hp.draws) hN _ k hc hk L (by omega), ← sum_ite_count]
    congr 2
    exact List.map_congr_left (fun f hf => always_value hG ha hcov h (hl _ hvq) hW (hl f hf))
  · rw [invalid_law (c := flipChain prop alwaysAccept x0 steps) hp L hL, eq_sub_iff_add_eq, ← add_div, div_eq_one_iff_eq hlen]
    have h1 : l.map (fun f => if refused (fun x : PlanState V P => W x.plan.mapping.get?) (ch.state.flip ⟨[f]⟩) = true then (1 : ℚ) else 0) =
        l.map (fun f => if (fun f : V × P => !W (moved a.mapping.get? f.1 (some f.2))) f = true then (1 : ℚ) else 0) := by
      refine List.map_congr_left (fun f hf => ?_)
      obtain ⟨b, hb, hm⟩ := state_flip hG ha hcov h (hl f hf)
      rw [hb]
      simp only [refused, hm]
    rw [h1, sum_ite_filter, filter_not_length]
    ring

theorem walk_ratio (hG : G.WF) (ha : a.Coherent) (hcov : a.Covers G.nodes) (h : AtPlan ch a W steps) (hN : 0 < N)
    (hp : Picks N d (prop ch.state) ch.state l) (hl : ∀ f ∈ l, CanMove G a.mapping f.1 f.2) {v : V} {q : P} (hvq : (v, q) ∈ l)
    (hW : W (moved a.mapping.get? v (some q)) = true) (n L : ℕ) (hn : 0 < n) (hL : n * d ≤ L) :
    stepProb N L (flipChain prop alwaysAccept x0 steps) ch n (Arrives (moved a.mapping.get? v (some q))) /
      stepProb N L (flipChain prop alwaysAccept x0 steps) ch n (fun _ => True) =
    (l.count (v, q) : ℚ) / (l.filter (fun f => W (moved a.mapping.get? f.1 (some f.2)))).length := by
  obtain ⟨k, hc, hk⟩ := h.counter
  obtain ⟨h1, h2, h3⟩ := walk_conditional (x0 := x0) hG ha hcov h hN hp hl hvq hW
  have hlen : (0 : ℚ) < l.length := by
    have : 0 < l.length := List.length_pos_of_mem hvq
    exact_mod_cast this
  have h3' : (0 : ℚ) < (l.filter (fun f => W (moved a.mapping.get? f.1 (some f.2)))).length := by exact_mod_cast h3
  have hr : invalidProb N d (flipChain prop alwaysAccept x0 steps) ch (fun x => W x.plan.mapping.get?) < 1 := by
    rw [h2 d le_rfl]
    have := div_pos h3' hlen
    linarith
  rw [C75_conditional _ ch _ d 0 (draws_always h hp.draws) N hN _ k hc hk n L d hn hL le_rfl hr, h1 d le_rfl, h2 d le_rfl, sub_sub_cancel,
    div_div_div_cancel_right₀ hlen.ne']

theorem walk_limit (hG : G.WF) (ha : a.Coherent) (hcov : a.Covers G.nodes) (h : AtPlan ch a W steps) (hN : 0 < N)
    (hp : Picks N d (prop ch.state) ch.state l) (hl : ∀ f ∈ l, CanMove G a.mapping f.1 f.2) {v : V} {q : P} (hvq : (v, q) ∈ l)
    (hW : W (moved a.mapping.get? v (some q)) = true) (ε : ℚ) (hε : 0 < ε) :
    ∃ n0, ∀ n L, n0 ≤ n → n * d ≤ L →
      |stepProb N L (flipChain prop alwaysAccept x0 steps) ch n (Arrives (moved a.mapping.get? v (some q))) -
        (l.count (v, q) : ℚ) / (l.filter (fun f => W (moved a.mapping.get? f.1 (some f.2)))).length| < ε := by
  obtain ⟨k, hc, hk⟩ := h.counter
  obtain ⟨h1, h2, h3⟩ := walk_conditional (x0 := x0) hG ha hcov h hN hp hl hvq hW
  have hlen : (0 : ℚ) < l.length := by
    have : 0 < l.length := List.length_pos_of_mem hvq
    exact_mod_cast this
  have h3' : (0 : ℚ) < (l.filter (fun f => W (moved a.mapping.get? f.1 (some f.2)))).length := by exact_mod_cast h3
  have hr : invalidProb N d (flipChain prop alwaysAccept x0 steps) ch (fun x => W x.plan.mapping.get?) < 1 := by
    rw [h2 d le_rfl]
    have := div_pos h3' hlen
    linarith
  obtain ⟨n0, hn0⟩ := C75_limit _ ch _ d 0 (draws_always (x0 := x0) h hp.draws) N hN (Arrives (moved a.mapping.get? v (some q))) k hc hk d le_rfl hr ε hε
  refine ⟨n0, fun n L hn hL => ?_⟩
  have := hn0 n L hn hL
  rw [h1 d le_rfl, h2 d le_rfl] at this
  have he : (l.count (v, q) : ℚ) / l.length / (1 - (1 - ((l.filter (fun f => W (moved a.mapping.get? f.1 (some f.2)))).length : ℚ) / l.length)) =
      (l.count (v, q) : ℚ) / (l.filter (fun f => W (moved a.mapping.get? f.1 (some f.2)))).length := by
    rw [sub_sub_cancel, div_div_div_cancel_right₀ hlen.ne']
  rw [he] at this
  exact this

end

/-! ### C76: `slow_reversible_propose` -/

section
variable {G : Graph V} {a : Assignment V P} {W : (V → Option P) → Bool} {ch : Chain Tape (PlanState V P)}

theorem canMove_iff (hG : G.WF) (hcov : a.Covers G.nodes) {v : V} {q : P} :
    CanMove G a.mapping v q ↔ ∃ u, (v, u) ∈ cutPairs G a.mapping.get? ∧ a.mapping.get? u = some q := by
  constructor
  · rintro ⟨⟨p, hp, hpq⟩, u, hadj, hu⟩
    refine ⟨u, (mem_cutPairs hG).2 ⟨hadj, ?_⟩, hu⟩
    show a.mapping.get? v ≠ a.mapping.get? u
    rw [hp, hu]
    exact fun h => hpq (Option.some.inj h)
  · rintro ⟨u, hvu, hu⟩
    obtain ⟨hadj, hne⟩ := (mem_cutPairs hG).1 hvu
    obtain ⟨p, hp⟩ := covers_adj hG hcov _ _ hadj
    refine ⟨⟨p, hp, ?_⟩, u, hadj, hu⟩
    rintro rfl
    exact hne (hp.trans hu.symm)

theorem mem_allowedMoves (hG : G.WF) (hcov : a.Covers G.nodes) {v : V} {o : Option P} :
    (v, o) ∈ allowedMoves G a.mapping.get? W ↔ ∃ q, o = some q ∧ CanMove G a.mapping v q ∧ W (moved a.mapping.get? v (some q)) = true := by
  unfold allowedMoves allowedPairs
  rw [Finset.mem_image]
  constructor
  · rintro ⟨⟨v', u⟩, hx, he⟩
    cases he
    obtain ⟨h1, h2⟩ := Finset.mem_filter.1 hx
    obtain ⟨hadj, hne⟩ := (mem_cutPairs hG).1 h1
    obtain ⟨q, hq⟩ := covers_adj hG hcov _ _ hadj.symm
    exact ⟨q, hq, (canMove_iff hG hcov).2 ⟨u, h1, hq⟩, hq ▸ h2⟩
  · rintro ⟨q, rfl, hm, hW⟩
    obtain ⟨u, hvu, hu⟩ := (canMove_iff hG hcov).1 hm
    exact ⟨(v, u), Finset.mem_filter.2 ⟨hvu, hu.symm ▸ hW⟩, by rw [hu]⟩

theorem length_flipPairs (hG : G.WF) (hcov : a.Covers G.nodes) (W : (V → Option P) → Bool) :
    ((flipPairs a (cutsOf G a.mapping)).filter (fun f => W (moved a.mapping.get? f.1 (some f.2)))).length =
      (allowedMoves G a.mapping.get? W).card := by
  have hnd : ((flipPairs a (cutsOf G a.mapping)).filter (fun f => W (moved a.mapping.get? f.1 (some f.2)))).Nodup :=
    (C57_uniform G hG a hcov).1.filter _
  rw [← List.toFinset_card_of_nodup hnd]
  have hinj : Function.Injective (fun f : V × P => (f.1, some f.2)) := by
    rintro ⟨x, y⟩ ⟨x', y'⟩ h
    simp only [Prod.mk.injEq, Option.some.injEq] at h
    exact Prod.ext h.1 h.2
  rw [← Finset.card_image_of_injective _ hinj]
  congr 1
  ext ⟨v, o⟩
  rw [mem_allowedMoves hG hcov, Finset.mem_image]
  constructor
  · rintro ⟨⟨v', q⟩, hf, he⟩
    cases he
    rw [List.mem_toFinset, List.mem_filter] at hf
    exact ⟨q, rfl, (mem_flipPairs hG hcov).1 hf.1, hf.2⟩
  · rintro ⟨q, rfl, hm, hW⟩
    exact ⟨(v, q), List.mem_toFinset.2 (List.mem_filter.2 ⟨(mem_flipPairs hG hcov).2 hm, hW⟩), rfl⟩

theorem length_flipPairs_all (hG : G.WF) (hcov : a.Covers G.nodes) :
    (flipPairs a (cutsOf G a.mapping)).length = (allowedMoves G a.mapping.get? (fun _ => true)).card := by
  rw [← length_flipPairs hG hcov, List.filter_true]

theorem slow_setup {N : ℕ} (hG : G.WF) (hcov : a.Covers G.nodes) (hN : 0 < N) (hd : (allowedMoves G a.mapping.get? (fun _ => true)).card ∣ N)
    {x : PlanState V P} (hx : x.plan = a) {v u : V} (hvu : (v, u) ∈ allowedPairs G a.mapping.get? W) :
    ∃ q, a.mapping.get? u = some q ∧ (v, q) ∈ flipPairs a (cutsOf G a.mapping) ∧ W (moved a.mapping.get? v (some q)) = true ∧
      Picks N 1 (slowMove N G x) x (flipPairs a (cutsOf G a.mapping)) ∧ (flipPairs a (cutsOf G a.mapping)).count (v, q) = 1 := by
  obtain ⟨h1, h2⟩ := Finset.mem_filter.1 hvu
  obtain ⟨q, hq⟩ := covers_adj hG hcov _ _ ((mem_cutPairs hG).1 h1).1.symm
  have hmem : (v, q) ∈ flipPairs a (cutsOf G a.mapping) := (mem_flipPairs hG hcov).2 ((canMove_iff hG hcov).2 ⟨u, h1, hq⟩)
  refine ⟨q, hq, hmem, hq ▸ h2, ?_, List.count_eq_one_of_mem (C57_uniform G hG a hcov).1 hmem⟩
  subst hx
  exact slow_picks hN G x (List.ne_nil_of_mem hmem) (by rw [length_flipPairs_all hG hcov]; exact hd)

end

/-- **C76** In a chain with `slow_reversible_propose`, `always_accept` and constraints that depend on the plan only: given that the step from plan `a`
is decided within `n` proposals, it goes to each plan that satisfies the constraints and can be reached by moving one node to a neighbouring district
with the same probability, one divided by the number of these moves. -/
theorem C76_uniform_step (G : Graph V) (hG : G.WF) (a : Assignment V P) (ha : a.Coherent) (hcov : a.Covers G.nodes) (W : (V → Option P) → Bool)
    (N : ℕ) (hN : 0 < N) (hd : (allowedMoves G a.mapping.get? (fun _ => true)).card ∣ N) (x0 : PlanState V P) (steps : ℤ)
    (ch : Chain Tape (PlanState V P)) (h : AtPlan ch a W steps) (v u : V) (hvu : (v, u) ∈ allowedPairs G a.mapping.get? W)
    (n L : ℕ) (hn : 0 < n) (hL : n ≤ L) :
    stepProb N L (flipChain (slowMove N G) alwaysAccept x0 steps) ch n (Arrives (moved a.mapping.get? v (a.mapping.get? u))) /
      stepProb N L (flipChain (slowMove N G) alwaysAccept x0 steps) ch n (fun _ => True) = 1 / (allowedMoves G a.mapping.get? W).card := by
  obtain ⟨q, hq, hmem, hW, hp, hcount⟩ := slow_setup hG hcov hN hd h.state hvu
  rw [hq, walk_ratio hG ha hcov h hN hp (fun f hf => (mem_flipPairs hG hcov).1 hf) hmem hW n L hn (by omega), hcount, length_flipPairs hG hcov]
  norm_num

/-- **C76 (limit)** Without a bound on the number of proposals this is the probability of the step. -/
theorem C76_limit (G : Graph V) (hG : G.WF) (a : Assignment V P) (ha : a.Coherent) (hcov : a.Covers G.nodes) (W : (V → Option P) → Bool)
    (N : ℕ) (hN : 0 < N) (hd : (allowedMoves G a.mapping.get? (fun _ => true)).card ∣ N) (x0 : PlanState V P) (steps : ℤ)
    (ch : Chain Tape (PlanState V P)) (h : AtPlan ch a W steps) (v u : V) (hvu : (v, u) ∈ allowedPairs G a.mapping.get? W) (ε : ℚ) (hε : 0 < ε) :
    ∃ n0, ∀ n L, n0 ≤ n → n ≤ L →
      |stepProb N L (flipChain (slowMove N G) alwaysAccept x0 steps) ch n (Arrives (moved a.mapping.get? v (a.mapping.get? u))) -
        1 / (allowedMoves G a.mapping.get? W).card| < ε := by
  obtain ⟨q, hq, hmem, hW, hp, hcount⟩ := slow_setup hG hcov hN hd h.state hvu
  obtain ⟨n0, hn0⟩ := walk_limit (x0 := x0) hG ha hcov h hN hp (fun f hf => (mem_flipPairs hG hcov).1 hf) hmem hW ε hε
  refine ⟨n0, fun n L hn hL => ?_⟩
  have := hn0 n L hn (by omega)
  rw [hcount, length_flipPairs hG hcov] at this
  rw [hq]
  simpa using this

/-- The probability of the step from the plan of `ch` to the plan `b`, given that it is decided within `n` proposals -/
noncomputable def slowStep (N L : ℕ) (G : Graph V) (x0 : PlanState V P) (steps : ℤ) (ch : Chain Tape (PlanState V P)) (n : ℕ) (b : V → Option P) : ℚ :=
  stepProb N L (flipChain (slowMove N G) alwaysAccept x0 steps) ch n (Arrives b) /
    stepProb N L (flipChain (slowMove N G) alwaysAccept x0 steps) ch n (fun _ => True)

/-- **C76 (detailed balance)** If `b` is `a` with one node moved to a neighbouring district, the node has a neighbour left in its old district, and
both plans satisfy the constraints, then the chain balances the flows between `a` and `b` when the plans are weighted by their number of allowed
moves. -/
theorem C76_detailed_balance (G : Graph V) (hG : G.WF) (a b : Assignment V P) (ha : a.Coherent) (hb : b.Coherent) (hcov : a.Covers G.nodes)
    (W : (V → Option P) → Bool) (hWa : W a.mapping.get? = true) (hWb : W b.mapping.get? = true) (N : ℕ) (hN : 0 < N)
    (hda : (allowedMoves G a.mapping.get? (fun _ => true)).card ∣ N) (hdb : (allowedMoves G b.mapping.get? (fun _ => true)).card ∣ N)
    (x0 : PlanState V P) (steps : ℤ) (cha chb : Chain Tape (PlanState V P)) (h : AtPlan cha a W steps) (h' : AtPlan chb b W steps)
    (v u w : V) (hu : G.Adj v u) (hne : a.mapping.get? v ≠ a.mapping.get? u) (hbm : b.mapping.get? = moved a.mapping.get? v (a.mapping.get? u))
    (hw : G.Adj v w) (hwv : w ≠ v) (hback : a.mapping.get? w = a.mapping.get? v)
    (n L : ℕ) (hn : 0 < n) (hL : n ≤ L) :
    (allowedMoves G a.mapping.get? W).card * slowStep N L G x0 steps cha n b.mapping.get? =
        (allowedMoves G b.mapping.get? W).card * slowStep N L G x0 steps chb n a.mapping.get? ∧
      0 < slowStep N L G x0 steps cha n b.mapping.get? := by
  have huv : u ≠ v := fun h => hne (by rw [h])
  have hcovb : b.Covers G.nodes := by
    intro x
    rw [← hcov x, Dict.mem_keys_iff, Dict.mem_keys_iff, hbm]
    by_cases hx : x = v
    · subst hx
      obtain ⟨q, hq⟩ := covers_adj hG hcov _ _ hu.symm
      obtain ⟨p, hp⟩ := covers_adj hG hcov _ _ hu
      simp [moved, hq, hp]
    · simp [moved, hx]
  have h1 : (v, u) ∈ allowedPairs G a.mapping.get? W :=
    Finset.mem_filter.2 ⟨(mem_cutPairs hG).2 ⟨hu, hne⟩, by rw [← hbm]; exact hWb⟩
  have hbv : b.mapping.get? v = a.mapping.get? u := by rw [hbm]; simp [moved]
  have hbw : b.mapping.get? w = a.mapping.get? v := by rw [hbm]; simp [moved, hwv, hback]
  have hab : a.mapping.get? = moved b.mapping.get? v (b.mapping.get? w) := by
    funext x
    by_cases hx : x = v
    · subst hx; unfold moved; rw [if_pos rfl, hbw]
    · unfold moved; rw [if_neg hx, hbm]; unfold moved; rw [if_neg hx]
  have h2 : (v, w) ∈ allowedPairs G b.mapping.get? W := by
    refine Finset.mem_filter.2 ⟨(mem_cutPairs hG).2 ⟨hw, ?_⟩, by rw [← hab]; exact hWa⟩
    show b.mapping.get? v ≠ b.mapping.get? w
    rw [hbv, hbw]
    exact fun h => hne h.symm
  have e1 : slowStep N L G x0 steps cha n b.mapping.get? = 1 / (allowedMoves G a.mapping.get? W).card := by
    unfold slowStep
    rw [hbm]
    exact C76_uniform_step G hG a ha hcov W N hN hda x0 steps cha h v u h1 n L hn hL
  have e2 : slowStep N L G x0 steps chb n a.mapping.get? = 1 / (allowedMoves G b.mapping.get? W).card := by
    unfold slowStep
    rw [hab]
    exact C76_uniform_step G hG b hb hcovb W N hN hdb x0 steps chb h' v w h2 n L hn hL
  have c1 : (0 : ℚ) < (allowedMoves G a.mapping.get? W).card := by
    exact_mod_cast Finset.card_pos.2 ⟨_, Finset.mem_image_of_mem _ h1⟩
  have c2 : (0 : ℚ) < (allowedMoves G b.mapping.get? W).card := by
    exact_mod_cast Finset.card_pos.2 ⟨_, Finset.mem_image_of_mem _ h2⟩
  rw [e1, e2, mul_one_div_cancel c1.ne', mul_one_div_cancel c2.ne']
  exact ⟨rfl, one_div_pos.2 c1⟩

/-! ### C77: `propose_random_flip` and `cut_edge_accept` -/

section
variable {G : Graph V} {a : Assignment V P} {W : (V → Option P) → Bool} {ch : Chain Tape (PlanState V P)}

theorem nodup_orderedCuts (hG : G.WF) (m : Dict V P) : (orderedCuts (cutsOf G m)).Nodup := by
  unfold orderedCuts
  rw [List.nodup_flatMap]
  have hlt : ∀ e ∈ iterE (cutsOf G m), e.1 < e.2 := by
    intro e he
    obtain ⟨⟨hle, -⟩, hne⟩ := mem_cutsOf.1 (mem_iterE.1 he)
    exact lt_of_le_of_ne hle (fun h => hne (by rw [h]))
  refine ⟨fun e he => ?_, ?_⟩
  · have := hlt e he
    simp only [List.nodup_cons, List.mem_singleton, Prod.mk.injEq, List.not_mem_nil, not_false_eq_true, List.nodup_nil, and_true]
    rintro ⟨h1, -⟩
    exact this.ne h1
  · have hnd : (iterE (cutsOf G m)).Nodup := nodup_iterE _
    refine hnd.imp_of_mem ?_
    intro e e' he he' hne x hx hx'
    have h1 := hlt e he
    have h2 := hlt e' he'
    simp only [List.mem_cons, List.not_mem_nil, or_false] at hx hx'
    rcases hx with rfl | rfl <;> rcases hx' with h | h
    · exact hne (Prod.ext (Prod.ext_iff.1 h).1 (Prod.ext_iff.1 h).2)
    · have a1 := (Prod.ext_iff.1 h).1
      have a2 := (Prod.ext_iff.1 h).2
      simp only at a1 a2
      rw [a1, a2] at h1
      exact absurd h1 (not_lt.2 h2.le)
    · have a1 := (Prod.ext_iff.1 h).1
      have a2 := (Prod.ext_iff.1 h).2
      simp only at a1 a2
      rw [a1, a2] at h1
      exact absurd h1 (not_lt.2 h2.le)
    · have a1 := (Prod.ext_iff.1 h).1
      have a2 := (Prod.ext_iff.1 h).2
      simp only at a1 a2
      exact hne (Prod.ext a2 a1)

theorem mem_orderedCuts (hG : G.WF) {m : Dict V P} {x : V × V} : x ∈ orderedCuts (cutsOf G m) ↔ x ∈ cutPairs G m.get? := by
  rw [mem_cutPairs hG]
  unfold orderedCuts
  rw [List.mem_flatMap]
  constructor
  · rintro ⟨e, he, hx⟩
    obtain ⟨⟨-, hadj⟩, hne⟩ := mem_cutsOf.1 (mem_iterE.1 he)
    simp only [List.mem_cons, List.not_mem_nil, or_false] at hx
    rcases hx with rfl | rfl
    · exact ⟨hadj, hne⟩
    · exact ⟨hadj.symm, fun h => hne h.symm⟩
  · rintro ⟨hadj, hne⟩
    rcases le_total x.1 x.2 with hle | hle
    · exact ⟨x, mem_iterE.2 (mem_cutsOf.2 ⟨⟨hle, hadj⟩, hne⟩), by simp⟩
    · exact ⟨(x.2, x.1), mem_iterE.2 (mem_cutsOf.2 ⟨⟨hle, hadj.symm⟩, fun h => hne h.symm⟩), by simp⟩

theorem length_filter_ordered (hG : G.WF) {m : Dict V P} (p : V × V → Bool) :
    ((orderedCuts (cutsOf G m)).filter p).length = ((cutPairs G m.get?).filter (fun x => p x = true)).card := by
  rw [← List.toFinset_card_of_nodup ((nodup_orderedCuts hG m).filter _)]
  congr 1
  ext x
  rw [List.mem_toFinset, List.mem_filter, Finset.mem_filter, mem_orderedCuts hG]

/-- each edge is cut twice, once in each direction -/
theorem card_cutPairs (hG : G.WF) (m : Dict V P) : (cutPairs G m.get?).card = 2 * (cutsOf G m).card := by
  have := length_filter_ordered hG (m := m) (fun _ => true)
  rw [List.filter_true, Finset.filter_true_of_mem (fun _ _ => rfl)] at this
  rw [← this]
  unfold orderedCuts
  rw [List.length_flatMap]
  simp only [List.length_cons, List.length_nil, zero_add, List.map_const', List.sum_replicate, smul_eq_mul, length_iterE]
  ring

/-- the neighbours of `v` in the district `o` -/
def nbrsIn (G : Graph V) (m : V → Option P) (v : V) (o : Option P) : Finset V := G.nodes.filter (fun u => G.Adj v u ∧ m u = o)

variable {l : List (V × P)}

theorem list_filter (hG : G.WF) (hl : l.map (fun f => (f.1, some f.2)) = (orderedCuts (cutsOf G a.mapping)).map (fun y => (y.1, a.mapping.get? y.2)))
    (p : V × Option P → Bool) :
    (l.filter (fun f => p (f.1, some f.2))).length = ((cutPairs G a.mapping.get?).filter (fun x => p (x.1, a.mapping.get? x.2) = true)).card := by
  have h1 : (l.filter (fun f => p (f.1, some f.2))).length = ((l.map (fun f => (f.1, some f.2))).filter p).length := by
    rw [List.filter_map, List.length_map]; rfl
  rw [h1, hl, List.filter_map, List.length_map]
  exact length_filter_ordered hG _

theorem list_allowed (hG : G.WF) (hl : l.map (fun f => (f.1, some f.2)) = (orderedCuts (cutsOf G a.mapping)).map (fun y => (y.1, a.mapping.get? y.2))) :
    (l.filter (fun f => W (moved a.mapping.get? f.1 (some f.2)))).length = (allowedPairs G a.mapping.get? W).card :=
  list_filter hG hl (fun z => W (moved a.mapping.get? z.1 z.2))

theorem list_count (hG : G.WF) (hl : l.map (fun f => (f.1, some f.2)) = (orderedCuts (cutsOf G a.mapping)).map (fun y => (y.1, a.mapping.get? y.2)))
    {v : V} {q : P} (hv : a.mapping.get? v ≠ some q) : l.count (v, q) = (nbrsIn G a.mapping.get? v (some q)).card := by
  have h0 : l.count (v, q) = (l.filter (fun f => (fun z : V × Option P => decide (z = (v, some q))) (f.1, some f.2))).length := by
    rw [List.count_eq_countP, List.countP_eq_length_filter]
    congr 1
    refine List.filter_congr (fun f _ => ?_)
    rcases f with ⟨x, y⟩
    by_cases h : (x, y) = (v, q)
    · cases h; simp
    · have : ¬ (x, some y) = (v, some q) := by
        intro h'
        simp only [Prod.mk.injEq, Option.some.injEq] at h'
        exact h (Prod.ext h'.1 h'.2)
      simp only [this, decide_false, beq_eq_false_iff_ne, ne_eq]
      exact h
  rw [h0, list_filter hG hl (fun z : V × Option P => decide (z = (v, some q)))]
  refine Finset.card_bij' (fun x _ => x.2) (fun u _ => (v, u)) ?_ ?_ ?_ ?_
  · intro x hx
    rw [Finset.mem_filter, mem_cutPairs hG] at hx
    obtain ⟨⟨hadj, -⟩, h⟩ := hx
    simp only [decide_eq_true_eq, Prod.mk.injEq] at h
    obtain ⟨rfl, hq⟩ := h
    exact Finset.mem_filter.2 ⟨(hG.mem_of_adj hadj).2, hadj, hq⟩
  · intro u hu
    obtain ⟨-, hadj, hq⟩ := Finset.mem_filter.1 hu
    rw [Finset.mem_filter, mem_cutPairs hG]
    exact ⟨⟨hadj, by rw [hq]; exact hv⟩, by simp [hq]⟩
  · intro x hx
    rw [Finset.mem_filter] at hx
    have h := hx.2
    simp only [decide_eq_true_eq, Prod.mk.injEq] at h
    exact Prod.ext h.1.symm rfl
  · intro u _; rfl

theorem random_setup {N : ℕ} (hG : G.WF) (hcov : a.Covers G.nodes) (hN : 0 < N) (h2 : 2 ∣ N) (hd : (cutsOf G a.mapping).card ∣ N)
    {x : PlanState V P} (hx : x.plan = a) {v u : V} (hvu : (v, u) ∈ allowedPairs G a.mapping.get? W) :
    ∃ q l, a.mapping.get? u = some q ∧ (v, q) ∈ l ∧ W (moved a.mapping.get? v (some q)) = true ∧
      Picks N 2 (randomMove N G x) x l ∧ l.count (v, q) = (nbrsIn G a.mapping.get? v (some q)).card ∧
      (∀ f ∈ l, CanMove G a.mapping f.1 f.2) ∧ l.length = (cutPairs G a.mapping.get?).card ∧
      (l.filter (fun f => W (moved a.mapping.get? f.1 (some f.2)))).length = (allowedPairs G a.mapping.get? W).card := by
  subst hx
  obtain ⟨h1, hW⟩ := Finset.mem_filter.1 hvu
  obtain ⟨hadj, hne⟩ := (mem_cutPairs hG).1 h1
  obtain ⟨q, hq⟩ := covers_adj hG hcov _ _ hadj.symm
  have hcn : (cutsOf G x.plan.mapping).Nonempty := by
    rw [← Finset.card_pos]
    have := Finset.card_pos.2 ⟨_, h1⟩
    rw [card_cutPairs hG] at this
    omega
  obtain ⟨l, hp, hlen, hl⟩ := random_picks hN hG x hcov hcn hd h2
  have hmem : ∀ n p, (n, p) ∈ l ↔ CanMove G x.plan.mapping n p := by
    refine mem_allCutEdgeFlips hG hcov ?_
    rw [hl]
    unfold orderedCuts
    rw [List.map_flatMap]
    rfl
  have hcan : CanMove G x.plan.mapping v q := (canMove_iff hG hcov).2 ⟨u, h1, hq⟩
  exact ⟨q, l, hq, (hmem v q).2 hcan, hq ▸ hW, hp, list_count hG hl (ne_of_canMove hcan), fun f hf => (hmem f.1 f.2).1 hf,
    by rw [hlen, card_cutPairs hG], list_allowed hG hl⟩

end

/-- **C77** In a chain with `propose_random_flip`, `always_accept` and constraints that depend on the plan only: given that the step from `a` is decided
within `n` proposals, the probability that it moves `v` to the district of its neighbour `u` is the number of neighbours of `v` in that district
divided by the number of ordered pairs of adjacent nodes for which such a move is allowed. -/
theorem C77_random_flip (G : Graph V) (hG : G.WF) (a : Assignment V P) (ha : a.Coherent) (hcov : a.Covers G.nodes) (W : (V → Option P) → Bool)
    (N : ℕ) (hN : 0 < N) (h2 : 2 ∣ N) (hd : (cutsOf G a.mapping).card ∣ N) (x0 : PlanState V P) (steps : ℤ)
    (ch : Chain Tape (PlanState V P)) (h : AtPlan ch a W steps) (v u : V) (hvu : (v, u) ∈ allowedPairs G a.mapping.get? W)
    (n L : ℕ) (hn : 0 < n) (hL : n * 2 ≤ L) :
    stepProb N L (flipChain (randomMove N G) alwaysAccept x0 steps) ch n (Arrives (moved a.mapping.get? v (a.mapping.get? u))) /
      stepProb N L (flipChain (randomMove N G) alwaysAccept x0 steps) ch n (fun _ => True) =
      ((nbrsIn G a.mapping.get? v (a.mapping.get? u)).card : ℚ) / (allowedPairs G a.mapping.get? W).card := by
  obtain ⟨q, l, hq, hmem, hW, hp, hcount, hcan, hlen, hall⟩ := random_setup hG hcov hN h2 hd h.state hvu
  rw [hq, walk_ratio hG ha hcov h hN hp hcan hmem hW n L hn hL, hcount, hall]

/-- accepting with `cut_edge_accept`: a flip with `c` cut edges before and `c'` after is accepted with probability `min 1 (c / c')` -/
theorem cutAccept_value {G : Graph V} {a : Assignment V P} {W : (V → Option P) → Bool} {ch : Chain Tape (PlanState V P)} {x0 : PlanState V P} {steps : ℤ} {N : ℕ}
    {prop : PlanState V P → M Tape (PlanState V P)} (hG : G.WF)
    (ha : a.Coherent) (hcov : a.Covers G.nodes) (h : AtPlan ch a W steps) (hN : 0 < N) {v : V} {q : P} (hvq : CanMove G a.mapping v q)
    (hW : W (moved a.mapping.get? v (some q)) = true) {b : Assignment V P} (hbm : b.mapping.get? = moved a.mapping.get? v (some q))
    (hb : (cutsOf G b.mapping).card ∣ N) (hpos : (cutsOf G b.mapping).card ≠ 0) {f : V × P} (hf : CanMove G a.mapping f.1 f.2) :
    decidedAvg N 1 (flipChain prop (cutAccept N G) x0 steps) ch (fun x => W x.plan.mapping.get?) (Arrives (moved a.mapping.get? v (some q)))
      (ch.state.flip ⟨[f]⟩) = min 1 (((cutsOf G a.mapping).card : ℚ) / (cutsOf G b.mapping).card) * if f = (v, q) then 1 else 0 := by
  obtain ⟨b', hb', hm⟩ := state_flip hG ha hcov h hf
  have hstay : ¬ Arrives (moved a.mapping.get? v (some q)) (.ok ch.state) := by
    rintro ⟨y, hy, hx⟩
    cases hy
    have := hx v
    rw [h.state] at this
    unfold moved at this
    rw [if_pos rfl] at this
    exact ne_of_canMove hvq this
  have herr : ∀ err, ¬ Arrives (moved a.mapping.get? v (some q)) (.error err) := by
    rintro err ⟨y, hy, -⟩
    cases hy
  unfold decidedAvg
  rw [hb']
  by_cases hfv : f = (v, q)
  · subst hfv
    rw [if_pos rfl, mul_one]
    have hcut : cutsOf G b'.mapping = cutsOf G b.mapping := by
      unfold cutsOf
      rw [hm, hbm]
    have hpos' : (0 : ℚ) < (cutsOf G b.mapping).card := by exact_mod_cast Nat.pos_of_ne_zero hpos
    set p : ℚ := min 1 (((cutsOf G a.mapping).card : ℚ) / (cutsOf G b.mapping).card) with hpd
    obtain ⟨r, hr⟩ := hb
    have hr0 : (r : ℚ) ≠ 0 := by
      rintro h0
      have : r = 0 := by exact_mod_cast h0
      rw [this, mul_zero] at hr
      omega
    have hk : ∃ k : ℕ, p = k / N := by
      by_cases hle : (cutsOf G b.mapping).card ≤ (cutsOf G a.mapping).card
      · refine ⟨N, ?_⟩
        rw [hpd, min_eq_left, div_self (by exact_mod_cast hN.ne')]
        rw [le_div_iff₀ hpos', one_mul]
        exact_mod_cast hle
      · refine ⟨(cutsOf G a.mapping).card * r, ?_⟩
        rw [hpd, min_eq_right, hr]
        · push_cast
          rw [mul_div_mul_right _ _ hr0]
        · rw [div_le_iff₀ hpos', one_mul]
          exact_mod_cast (not_le.1 hle).le
    obtain ⟨k, hk⟩ := hk
    have key : ∀ t, decided (flipChain prop (cutAccept N G) x0 steps) ch (fun x => W x.plan.mapping.get?) (Arrives (moved a.mapping.get? v (some q)))
        (.ok ⟨b', some a⟩) t = outcome ch (Arrives (moved a.mapping.get? v (some q))) ⟨b', some a⟩
          (((uniRand N).random >>= (fun u => (if u < p then pure true else pure false : M Tape Bool))) t).1 := by
      intro t
      simp only [decided, hm, hW, if_true]
      congr 2
      show cutAccept N G ⟨b', some a⟩ t = _
      unfold cutAccept
      simp only [hcut, if_neg hpos]
      rw [← hpd]
      show ((uniRand N).random >>= fun u => (pure (decide (u < p)) : M Tape Bool)) t = _
      refine congrFun (congrArg _ (funext fun u => ?_)) t
      by_cases hu : u < p
      · rw [if_pos hu, decide_eq_true hu]
      · rw [if_neg hu, decide_eq_false hu]
    rw [avg_congr N 1 key, avg_random hN 0 p k hk (min_le_left _ _)]
    simp only [outcome]
    rw [if_neg hstay, if_pos ⟨_, rfl, fun x => congrFun hm x⟩]
    ring
  · rw [if_neg hfv, mul_zero]
    have hno : ¬ Arrives (moved a.mapping.get? v (some q)) (.ok ⟨b', some a⟩) := by
      rintro ⟨y, hy, hx⟩
      cases hy
      obtain ⟨h1, h2⟩ := moved_inj (ne_of_canMove hf) (ne_of_canMove hvq) (hm ▸ funext hx)
      exact hfv (Prod.ext h1 (Option.some.inj h2))
    have key : ∀ t, decided (flipChain prop (cutAccept N G) x0 steps) ch (fun x => W x.plan.mapping.get?) (Arrives (moved a.mapping.get? v (some q)))
        (.ok ⟨b', some a⟩) t = 0 := by
      intro t
      simp only [decided]
      split
      · rcases (cutAccept N G ⟨b', some a⟩ t) with ⟨r, s⟩
        show outcome _ _ _ ((flipChain prop (cutAccept N G) x0 steps).accept ⟨b', some a⟩ t).1 = 0
        rcases ((flipChain prop (cutAccept N G) x0 steps).accept ⟨b', some a⟩ t) with ⟨r, s⟩
        cases r with
        | error err => exact if_neg (herr err)
        | ok r => cases r; exacts [if_neg hstay, if_neg hno]
      · rfl
    rw [avg_congr N 1 key, avg_const hN]

theorem draws_cutAccept (N : ℕ) (G : Graph V) (x : PlanState V P) : Draws 1 (cutAccept N G x) :=
  (draws_lift 0 _).bind (j := 1) (fun _ => (draws_random N).bind (j := 0) (fun _ => draws_pure 0 _))

/-- **C77 (Metropolis)** With `cut_edge_accept` the probability of the move from `a` to `b` is multiplied by `min 1 (c / c')` where `c` and `c'` are the numbers of cut edges of
`a` and `b`: given that the step is decided within `n` proposals, ... -/
theorem C77_cut_edge_accept (G : Graph V) (hG : G.WF) (a b : Assignment V P) (ha : a.Coherent) (hcov : a.Covers G.nodes) (W : (V → Option P) → Bool)
    (N : ℕ) (hN : 0 < N) (h2 : 2 ∣ N) (hda : (cutsOf G a.mapping).card ∣ N) (hdb : (cutsOf G b.mapping).card ∣ N)
    (hpos : (cutsOf G b.mapping).card ≠ 0) (x0 : PlanState V P) (steps : ℤ)
    (ch : Chain Tape (PlanState V P)) (h : AtPlan ch a W steps) (v u : V) (hvu : (v, u) ∈ allowedPairs G a.mapping.get? W)
    (hbm : b.mapping.get? = moved a.mapping.get? v (a.mapping.get? u)) (n L : ℕ) (hn : 0 < n) (hL : n * 3 ≤ L) :
    stepProb N L (flipChain (randomMove N G) (cutAccept N G) x0 steps) ch n (Arrives b.mapping.get?) /
      stepProb N L (flipChain (randomMove N G) (cutAccept N G) x0 steps) ch n (fun _ => True) =
      ((nbrsIn G a.mapping.get? v (a.mapping.get? u)).card : ℚ) / (allowedPairs G a.mapping.get? W).card *
        min 1 (((cutsOf G a.mapping).card : ℚ) / (cutsOf G b.mapping).card) := by
  obtain ⟨q, l, hq, hmem, hW, hp, hcount, hcan, hlen, hall⟩ := random_setup hG hcov hN h2 hda h.state hvu
  obtain ⟨k, hc, hk⟩ := h.counter
  obtain ⟨-, h2', h3⟩ := walk_conditional (x0 := x0) hG ha hcov h hN hp hcan hmem hW
  have hlen0 : (0 : ℚ) < l.length := by
    have : 0 < l.length := List.length_pos_of_mem hmem
    exact_mod_cast this
  have h3' : (0 : ℚ) < (l.filter (fun f => W (moved a.mapping.get? f.1 (some f.2)))).length := by exact_mod_cast h3
  have hD : DrawsOnly (flipChain (randomMove N G) (cutAccept N G) x0 steps) ch (fun x => W x.plan.mapping.get?) 2 1 :=
    ⟨fun _ _ => rfl, h.valid, hp.draws, draws_cutAccept N G⟩
  have hinv : invalidProb N 3 (flipChain (randomMove N G) (cutAccept N G) x0 steps) ch (fun x => W x.plan.mapping.get?) =
      1 - ((l.filter (fun f => W (moved a.mapping.get? f.1 (some f.2)))).length : ℚ) / l.length := h2' 3 (by omega)
  have hr : invalidProb N 3 (flipChain (randomMove N G) (cutAccept N G) x0 steps) ch (fun x => W x.plan.mapping.get?) < 1 := by
    rw [hinv]
    have := div_pos h3' hlen0
    linarith
  rw [hq] at hbm
  rw [C75_conditional _ ch _ 2 1 hD N hN _ k hc hk n L 3 hn hL le_rfl hr, hinv, sub_sub_cancel,
    step_law (c := flipChain (randomMove N G) (cutAccept N G) x0 steps) hp hD hN _ k hc hk 3 le_rfl, hbm]
  have hsum : (l.map (fun f => decidedAvg N 1 (flipChain (randomMove N G) (cutAccept N G) x0 steps) ch (fun x => W x.plan.mapping.get?)
      (Arrives (moved a.mapping.get? v (some q))) (ch.state.flip ⟨[f]⟩))).sum =
      min 1 (((cutsOf G a.mapping).card : ℚ) / (cutsOf G b.mapping).card) * l.count (v, q) := by
    rw [← sum_ite_count, ← List.sum_map_mul_left]
    congr 1
    exact List.map_congr_left (fun f hf => cutAccept_value hG ha hcov h hN (hcan _ hmem) hW hbm hdb hpos (hcan f hf))
  rw [hsum, hcount, hall, hq, div_div_div_cancel_right₀ hlen0.ne']
  ring

theorem decided_free {G : Graph V} {a : Assignment V P} {ch : Chain Tape (PlanState V P)} {x0 : PlanState V P} {steps : ℤ} {N : ℕ} (hG : G.WF)
    (ha : a.Coherent) (hcov : a.Covers G.nodes) (h : AtPlan ch a (fun _ => true) steps) (hN : 0 < N) (h2 : 2 ∣ N) (hd : (cutsOf G a.mapping).card ∣ N)
    {v u : V} (hvu : (v, u) ∈ cutPairs G a.mapping.get?) (n L : ℕ) (hn : 0 < n) (hL : n * 3 ≤ L) :
    stepProb N L (flipChain (randomMove N G) (cutAccept N G) x0 steps) ch n (fun _ => True) = 1 := by
  have hvu' : (v, u) ∈ allowedPairs G a.mapping.get? (fun _ => true) := Finset.mem_filter.2 ⟨hvu, rfl⟩
  obtain ⟨q, l, hq, hmem, hW, hp, hcount, hcan, hlen, hall⟩ := random_setup hG hcov hN h2 hd h.state hvu'
  obtain ⟨k, hc, hk⟩ := h.counter
  obtain ⟨-, h2', h3⟩ := walk_conditional (x0 := x0) hG ha hcov h hN hp hcan hmem hW
  have hlen0 : (l.length : ℚ) ≠ 0 := by
    have : 0 < l.length := List.length_pos_of_mem hmem
    exact_mod_cast this.ne'
  have hD : DrawsOnly (flipChain (randomMove N G) (cutAccept N G) x0 steps) ch (fun _ => true) 2 1 :=
    ⟨fun _ _ => rfl, h.valid, hp.draws, draws_cutAccept N G⟩
  have hinv : invalidProb N 3 (flipChain (randomMove N G) (cutAccept N G) x0 steps) ch (fun _ => true) =
      1 - ((l.filter (fun _ => true)).length : ℚ) / l.length := h2' 3 (by omega)
  rw [C75_waiting _ ch _ 2 1 hD N hN k hc hk n L 3 hL le_rfl, hinv, List.filter_true, div_self hlen0, sub_self, zero_pow hn.ne', sub_zero]

theorem min_ratio {x y : ℕ} (hx : x ≠ 0) (hy : y ≠ 0) (c : ℚ) : c / (2 * x : ℕ) * min 1 ((x : ℚ) / y) = c / (2 * max x y) := by
  have hx' : (0 : ℚ) < x := by exact_mod_cast Nat.pos_of_ne_zero hx
  have hy' : (0 : ℚ) < y := by exact_mod_cast Nat.pos_of_ne_zero hy
  push_cast
  rcases le_total (y : ℚ) (x : ℚ) with h | h
  · rw [min_eq_left (by rw [le_div_iff₀ hy', one_mul]; exact h), max_eq_left h, mul_one]
  · rw [min_eq_right (by rw [div_le_iff₀ hy', one_mul]; exact h), max_eq_right h]
    field_simp

/-- **C77 (balance)** Without constraints: if `b` is `a` with `v` moved to the district of a neighbour, then the step from `a` to `b` and the step back
have probabilities with the same denominator, and with the numbers of neighbours of `v` in the district it moves to as numerators: `cut_edge_accept` cancels
the numbers of cut edges exactly, and nothing else. -/
theorem C77_flow_ratio (G : Graph V) (hG : G.WF) (a b : Assignment V P) (ha : a.Coherent) (hb : b.Coherent) (hcov : a.Covers G.nodes)
    (N : ℕ) (hN : 0 < N) (h2 : 2 ∣ N) (hda : (cutsOf G a.mapping).card ∣ N) (hdb : (cutsOf G b.mapping).card ∣ N)
    (x0 : PlanState V P) (steps : ℤ) (cha chb : Chain Tape (PlanState V P)) (h : AtPlan cha a (fun _ => true) steps) (h' : AtPlan chb b (fun _ => true) steps)
    (v u w : V) (hu : G.Adj v u) (hne : a.mapping.get? v ≠ a.mapping.get? u) (hbm : b.mapping.get? = moved a.mapping.get? v (a.mapping.get? u))
    (hw : G.Adj v w) (hwv : w ≠ v) (hback : a.mapping.get? w = a.mapping.get? v) (n L : ℕ) (hn : 0 < n) (hL : n * 3 ≤ L) :
    stepProb N L (flipChain (randomMove N G) (cutAccept N G) x0 steps) cha n (Arrives b.mapping.get?) =
        ((nbrsIn G a.mapping.get? v (b.mapping.get? v)).card : ℚ) / (2 * max (cutsOf G a.mapping).card (cutsOf G b.mapping).card) ∧
    stepProb N L (flipChain (randomMove N G) (cutAccept N G) x0 steps) chb n (Arrives a.mapping.get?) =
        ((nbrsIn G b.mapping.get? v (a.mapping.get? v)).card : ℚ) / (2 * max (cutsOf G a.mapping).card (cutsOf G b.mapping).card) := by
  have hcovb : b.Covers G.nodes := by
    intro x
    rw [← hcov x, Dict.mem_keys_iff, Dict.mem_keys_iff, hbm]
    by_cases hx : x = v
    · subst hx
      obtain ⟨q, hq⟩ := covers_adj hG hcov _ _ hu.symm
      obtain ⟨p, hp⟩ := covers_adj hG hcov _ _ hu
      simp [moved, hq, hp]
    · simp [moved, hx]
  have hbv : b.mapping.get? v = a.mapping.get? u := by rw [hbm]; simp [moved]
  have hbw : b.mapping.get? w = a.mapping.get? v := by rw [hbm]; simp [moved, hwv, hback]
  have hab : a.mapping.get? = moved b.mapping.get? v (b.mapping.get? w) := by
    funext x
    by_cases hx : x = v
    · subst hx; unfold moved; rw [if_pos rfl, hbw]
    · unfold moved; rw [if_neg hx, hbm]; unfold moved; rw [if_neg hx]
  have c1 : (v, u) ∈ cutPairs G a.mapping.get? := (mem_cutPairs hG).2 ⟨hu, hne⟩
  have c2 : (v, w) ∈ cutPairs G b.mapping.get? := by
    refine (mem_cutPairs hG).2 ⟨hw, ?_⟩
    show b.mapping.get? v ≠ b.mapping.get? w
    rw [hbv, hbw]
    exact fun h => hne h.symm
  have k1 : (cutsOf G a.mapping).card ≠ 0 := by
    have := Finset.card_pos.2 ⟨_, c1⟩
    rw [card_cutPairs hG] at this
    omega
  have k2 : (cutsOf G b.mapping).card ≠ 0 := by
    have := Finset.card_pos.2 ⟨_, c2⟩
    rw [card_cutPairs hG] at this
    omega
  have hall : ∀ m : Dict V P, allowedPairs G m.get? (fun _ => true) = cutPairs G m.get? := fun m =>
    Finset.filter_true_of_mem (fun _ _ => rfl)
  constructor
  · have := C77_cut_edge_accept G hG a b ha hcov (fun _ => true) N hN h2 hda hdb k2 x0 steps cha h v u (by rw [hall]; exact c1) hbm n L hn hL
    rw [decided_free hG ha hcov h hN h2 hda c1 n L hn hL, div_one, hall, card_cutPairs hG, min_ratio k1 k2] at this
    rw [this, hbv]
  · have := C77_cut_edge_accept G hG b a hb hcovb (fun _ => true) N hN h2 hdb hda k1 x0 steps chb h' v w (by rw [hall]; exact c2) hab n L hn hL
    rw [decided_free hG hb hcovb h' hN h2 hdb c2 n L hn hL, div_one, hall, card_cutPairs hG, min_ratio k2 k1] at this
    rw [this, hbw, max_comm]

/-! ### Examples -/

/-- a chain in plan `a` whose only constraint is `W` -/
def chainAt (a : Assignment V P) (W : (V → Option P) → Bool) : Chain Tape (PlanState V P) :=
  ⟨[⟨fun x t => (.ok (.bool (W x.plan.mapping.get?)), t), some "W"⟩], some 1, ⟨a, none⟩⟩

theorem chainAt_atPlan (a : Assignment V P) (W : (V → Option P) → Bool) : AtPlan (chainAt a W) a W 10 where
  state := rfl
  valid := fun x t => by
    unfold chainAt validator
    dsimp only
    cases W x.plan.mapping.get? <;> rfl
  counter := ⟨0, rfl, by decide⟩

/-- the path 0 - 1 - 2 - 3 -/
def walkPath : Graph (Fin 4) := ⟨Finset.univ, {(0, 1), (1, 2), (2, 3)}⟩

/-- the districts {0} and {1, 2, 3} -/
def walkA : Assignment (Fin 4) (Fin 2) := ⟨⟨[(0, {0}), (1, {1, 2, 3})]⟩, ⟨[(0, 0), (1, 1), (2, 1), (3, 1)]⟩⟩

/-- the districts {0, 1} and {2, 3} -/
def walkB : Assignment (Fin 4) (Fin 2) := ⟨⟨[(0, {0, 1}), (1, {2, 3})]⟩, ⟨[(0, 0), (1, 0), (2, 1), (3, 1)]⟩⟩

/-- no district is empty -/
def noneEmpty (m : Fin 4 → Option (Fin 2)) : Bool := decide ((∃ v, m v = some 0) ∧ ∃ v, m v = some 1)

theorem walk_coherent : walkA.Coherent ∧ walkB.Coherent := by
  constructor <;>
    exact ⟨by unfold Dict.WF; decide, by unfold Dict.WF; decide, by decide, by decide⟩

theorem walk_counts : (allowedMoves walkPath walkA.mapping.get? (fun _ => true)).card = 2 ∧
    (allowedMoves walkPath walkB.mapping.get? (fun _ => true)).card = 2 ∧
    (allowedMoves walkPath walkA.mapping.get? noneEmpty).card = 1 ∧ (allowedMoves walkPath walkB.mapping.get? noneEmpty).card = 2 := by
  decide +kernel

/-- **C76 (not uniform)** With the constraint that no district is empty, `slow_reversible_propose` on the path with four nodes goes from {0} | {1, 2, 3} to
{0, 1} | {2, 3} twice as often as back: the uniform distribution on the plans that satisfy the constraints is not reversible, as the retries condition each step
on the constraints. -/
theorem C76_not_uniform (n : ℕ) (hn : 0 < n) :
    slowStep 2 n walkPath ⟨walkA, none⟩ 10 (chainAt walkA noneEmpty) n walkB.mapping.get? = 1 ∧
    slowStep 2 n walkPath ⟨walkA, none⟩ 10 (chainAt walkB noneEmpty) n walkA.mapping.get? = 1 / 2 := by
  have hG : walkPath.WF := by constructor <;> decide
  have e1 : walkB.mapping.get? = moved walkA.mapping.get? 1 (walkA.mapping.get? 0) := by decide +kernel
  have e2 : walkA.mapping.get? = moved walkB.mapping.get? 1 (walkB.mapping.get? 2) := by decide +kernel
  unfold slowStep
  constructor
  · rw [e1, C76_uniform_step walkPath hG walkA walk_coherent.1 (by unfold Assignment.Covers; decide) noneEmpty 2 (by decide) (by rw [walk_counts.1]) _ 10 _
      (chainAt_atPlan walkA noneEmpty) 1 0 (by decide +kernel) n n hn le_rfl, walk_counts.2.2.1]
    norm_num
  · rw [e2, C76_uniform_step walkPath hG walkB walk_coherent.2 (by unfold Assignment.Covers; decide) noneEmpty 2 (by decide) (by rw [walk_counts.2.1]) _ 10 _
      (chainAt_atPlan walkB noneEmpty) 1 2 (by decide +kernel) n n hn le_rfl, walk_counts.2.2.2]
    norm_num

/-- node 0 with three neighbours -/
def walkStar : Graph (Fin 4) := ⟨Finset.univ, {(0, 1), (0, 2), (0, 3)}⟩

/-- the districts {0, 1} and {2, 3} of the star -/
def starA : Assignment (Fin 4) (Fin 2) := walkB

/-- the districts {1} and {0, 2, 3} of the star -/
def starB : Assignment (Fin 4) (Fin 2) := ⟨⟨[(0, {1}), (1, {0, 2, 3})]⟩, ⟨[(0, 1), (1, 0), (2, 1), (3, 1)]⟩⟩

/-- **C77 (not uniform)** Even without constraints `propose_random_flip` with `cut_edge_accept` does not balance the flows of the uniform distribution:
on the star it moves the centre from the district of one neighbour to the district of the two others twice as often as back. -/
theorem C77_not_uniform (n : ℕ) (hn : 0 < n) :
    stepProb 2 (n * 3) (flipChain (randomMove 2 walkStar) (cutAccept 2 walkStar) ⟨starA, none⟩ 10) (chainAt starA (fun _ => true)) n
        (Arrives starB.mapping.get?) = 1 / 2 ∧
      stepProb 2 (n * 3) (flipChain (randomMove 2 walkStar) (cutAccept 2 walkStar) ⟨starA, none⟩ 10) (chainAt starB (fun _ => true)) n
        (Arrives starA.mapping.get?) = 1 / 4 := by
  have hG : walkStar.WF := by constructor <;> decide
  have hb : starB.Coherent := ⟨by unfold Dict.WF; decide, by unfold Dict.WF; decide, by decide, by decide⟩
  have k1 : (cutsOf walkStar starA.mapping).card = 2 := by decide +kernel
  have k2 : (cutsOf walkStar starB.mapping).card = 1 := by decide +kernel
  have m1 : (nbrsIn walkStar starA.mapping.get? 0 (starB.mapping.get? 0)).card = 2 := by decide +kernel
  have m2 : (nbrsIn walkStar starB.mapping.get? 0 (starA.mapping.get? 0)).card = 1 := by decide +kernel
  obtain ⟨h1, h2⟩ := C77_flow_ratio walkStar hG starA starB walk_coherent.2 hb (by unfold Assignment.Covers; decide) 2 (by decide) (by decide)
    (by rw [k1]) (by rw [k2]; decide) ⟨starA, none⟩ 10 _ _ (chainAt_atPlan starA _) (chainAt_atPlan starB _) 0 2 1 (by decide) (by decide)
    (by decide +kernel) (by decide) (by decide) (by decide) n (n * 3) hn le_rfl
  rw [h1, h2, k1, k2, m1, m2]
  norm_num

end GC

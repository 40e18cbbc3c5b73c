import Verif.Props.AnyObj

/-!
# Runs of `propose_any_node_flip` with `cut_edge_accept` (C125)

`cut_edge_accept` (accept.py:19-35) accepts a proposal with probability `min(1, cut edges before / cut edges after)` and raises `ZeroDivisionError` for a plan
without cut edges.  So the constraints have to exclude these plans, which `propose_any_node_flip` can get to; with them, the share of a plan in the long run is
that of C124 divided by its number of cut edges.
-/

set_option linter.unusedSectionVars false
set_option autoImplicit false

namespace GC

variable {V P : Type} [LinearOrder V] [LinearOrder P]

/-- every plan that can be reached has a cut edge -/
def AlwaysCut (G : Graph V) (S : Finset (V → Option P)) : Prop := ∀ m ∈ S, (cutPairs G m).Nonempty

section round
variable {G : Graph V} {W : (V → Option P) → Bool} {a : Assignment V P} {S : Finset (V → Option P)} {N : ℕ}
  {x0 : PlanState V P} {steps : ℤ} {cs : List (Constraint Tape (PlanState V P))} [DecidableEq (V → Option P)]

theorem any_cut_rateLaw (hs : AnySetting G W a S) (hG : G.WF) (hcut : AlwaysCut G S) (hcs : Decides W cs) (hN : 0 < N) (hn : G.nodes.card ∣ N)
    (hk : a.parts.keys.length ∣ N) (hd : CutsDivide N G S) :
    RateLaw N (2 + 1) (flipChain (anyMove N G) (cutAccept N G) x0 steps) cs (AnyGood G a S) (fun x => x.plan.mapping.get?) S
      (fun _ => 1 / ((G.nodes.card : ℚ) * a.parts.keys.length)) (anyRate G a.parts.keys.toFinset W) (cutAcceptChance G) := by
  have h := any_rateLaw (x0 := x0) (steps := steps) hs hcs hN hn hk
  unfold RateLaw at h ⊢
  rw [always_tilt] at h
  refine h.tilt (c' := flipChain (anyMove N G) (cutAccept N G) x0 steps) hN (fun _ _ => rfl) rfl (fun _ _ => rfl) (fun y => draws_cutAccept N G y) ?_
  intro x hx t y hy
  have hgood := h.good x hx t y hy
  have hprop : (anyMove N G x t).1 = .ok y := oneTry_proposed (c := flipChain (anyMove N G) alwaysAccept x0 steps) (fun _ _ => rfl) hy
  have hparent : y.parent = some x.plan := by
    obtain ⟨f, hf, he⟩ := anyMove_total (N := N) hs hx t
    obtain ⟨b, hb, -⟩ := anyGood_flip hs hx hf
    rw [hprop, hb] at he
    cases he
    rfl
  exact cutAccept_accepts hG hN hparent (hd _ hgood.1.2.2) (hcut _ hgood.1.2.2)

theorem any_cut_walk (hs : AnySetting G W a S) (hcut : AlwaysCut G S) :
    RateWalk S (fun _ => 1 / ((G.nodes.card : ℚ) * a.parts.keys.length)) (anyRate G a.parts.keys.toFinset W) (cutAcceptChance G) :=
  have h := any_walk hs
  ⟨h.nonneg, h.sum, fun m hm m' hm' => ⟨(cutAcceptChance_pos (hcut m hm) (hcut m' hm')).le, min_le_left _ _⟩, h.pos, h.le⟩

theorem any_cut_connects (hs : AnySetting G W a S) (hcut : AlwaysCut G S) :
    Connects S (walkKernel S (anyRate G a.parts.keys.toFinset W) (cutAcceptChance G)) := by
  refine walk_connects (any_cut_walk hs hcut) (fun m hm m' hm' => cutAcceptChance_pos (hcut m hm) (hcut m' hm')) ?_
  intro m hm m' hm'
  have h := hs.reach hm hm'
  clear hm'
  induction h with
  | refl => exact .refl
  | @tail b c h1 h ih =>
    have hb : b ∈ S := (hs.mem b).2 (((hs.mem m).1 hm).trans h1)
    exact ih.tail ⟨hb, hs.closed hb h, anyRate_pos h⟩

theorem any_cut_invariant (hs : AnySetting G W a S) (hcut : AlwaysCut G S) :
    Invariant S (walkKernel S (anyRate G a.parts.keys.toFinset W) (cutAcceptChance G))
      (cutShare G S (fun m => ((goodPairs G a.parts.keys.toFinset W m).card : ℚ))) := by
  have h := balance_invariant (any_cut_walk hs hcut) ⟨_, hs.initial⟩ (fun m hm m' hm' => anyRate_symm hs hm hm') (g := fun m => ((cutPairs G m).card : ℚ))
    (fun m hm => by exact_mod_cast Finset.card_pos.2 (hcut m hm)) (fun _ _ _ _ => rfl)
  have e : ∀ m ∈ S, (rateSum S (anyRate G a.parts.keys.toFinset W) m / (cutPairs G m).card) /
      ∑ y ∈ S, rateSum S (anyRate G a.parts.keys.toFinset W) y / (cutPairs G y).card =
      cutShare G S (fun m => ((goodPairs G a.parts.keys.toFinset W m).card : ℚ)) m := by
    intro m hm
    unfold cutShare
    rw [anyRate_sum hs hm, Finset.sum_congr rfl (fun y hy => by rw [anyRate_sum hs hy])]
  refine ⟨fun m hm => ?_, ?_, fun m hm => ?_⟩
  · rw [← e m hm]
    exact h.nonneg m hm
  · rw [← h.sum]
    exact Finset.sum_congr rfl (fun m hm => (e m hm).symm)
  · rw [← e m hm, ← h.step m hm]
    exact Finset.sum_congr rfl (fun y hy => by rw [e y hy])

theorem any_cut_loop (hs : AnySetting G W a S) (hcut : AlwaysCut G S) {m : V → Option P} (hm : m ∈ S) :
    0 < walkKernel S (anyRate G a.parts.keys.toFinset W) (cutAcceptChance G) m m := by
  have hwalk := any_cut_walk hs hcut
  have hk : ∀ z ∈ S, 0 ≤ rateKernel S (anyRate G a.parts.keys.toFinset W) m z := fun z hz => div_nonneg (hwalk.nonneg m hm z hz) (hwalk.sum m hm).le
  unfold walkKernel tiltRate
  rw [if_pos rfl]
  refine add_pos_of_pos_of_nonneg (mul_pos (div_pos (anyRate_pos (hs.stay hm)) (hwalk.sum m hm)) (cutAcceptChance_pos (hcut m hm) (hcut m hm))) ?_
  exact Finset.sum_nonneg (fun z hz => mul_nonneg (hk z hz) (sub_nonneg.2 (hwalk.chance m hm z hz).2))

end round

section runs
variable (G : Graph V) (W : (V → Option P) → Bool) (a : Assignment V P) (S : Finset (V → Option P)) [DecidableEq (V → Option P)]

/-- **C125** (the run) The probability that a run of `propose_any_node_flip` with `cut_edge_accept` is finished and that its plans are the initial plan and then
the plans `p` is at most, and with many proposals in each step nearly, the probability of that path for the transition probabilities `K`: another plan is proposed
in proportion to the number of pairs of a node and a label that lead there, and accepted with probability `min(1, cut edges before / cut edges after)`. -/
theorem C125_run (hs : AnySetting G W a S) (hG : G.WF) (hcut : AlwaysCut G S) :
    ∃ c : ℚ, 0 ≤ c ∧ c < 1 ∧ ∃ K : (V → Option P) → (V → Option P) → ℚ, (∀ m ∈ S, ∑ m' ∈ S, K m m' = 1) ∧
      (∀ m ∈ S, ∀ m', m' ≠ m → K m m' = ((goodPairs G a.parts.keys.toFinset W m).filter (fun x => moved m x.1 (some x.2) = m')).card /
        (goodPairs G a.parts.keys.toFinset W m).card * min 1 (((cutPairs G m).card : ℚ) / (cutPairs G m').card)) ∧
      ∀ N, 0 < N → G.nodes.card ∣ N → a.parts.keys.length ∣ N → CutsDivide N G S → ∀ cs, Decides W cs → ∀ ch : Chain Tape (PlanState V P), ch.isValid = cs →
      ∀ (p : List (V → Option P)), (∀ m ∈ p, m ∈ S) → ∀ f body L, 0 < f → p.length + 1 < body → p.length * (f * 3) ≤ L →
        avg N L (fun t => listValue (fun x => x.plan.mapping.get?) (fun l => if l = a.mapping.get? :: p then 1 else 0)
            (ch.list (flipChain (anyMove N G) (cutAccept N G) ⟨a, none⟩ (p.length + 1 : ℕ)) f body t)) ≤ pathProb K a.mapping.get? p ∧
        (1 - c ^ f) ^ p.length * pathProb K a.mapping.get? p ≤
          avg N L (fun t => listValue (fun x => x.plan.mapping.get?) (fun l => if l = a.mapping.get? :: p then 1 else 0)
            (ch.list (flipChain (anyMove N G) (cutAccept N G) ⟨a, none⟩ (p.length + 1 : ℕ)) f body t)) := by
  have hwalk := any_cut_walk hs hcut
  obtain ⟨c, hc⟩ := hwalk.refusal ⟨_, hs.initial⟩
  refine ⟨c, hc.1, hc.2.1, walkKernel S (anyRate G a.parts.keys.toFinset W) (cutAcceptChance G), hwalk.isKernel.sum, fun m hm m' hne => ?_, ?_⟩
  · unfold walkKernel tiltRate rateKernel
    rw [if_neg hne, add_zero, anyRate_sum hs hm]
    rfl
  · intro N hN hn hk hd cs hcs ch hch p hp f body L hf hbody hL
    exact rate_run hwalk hc (any_cut_rateLaw (x0 := ⟨a, none⟩) (steps := (p.length + 1 : ℕ)) hs hG hcut hcs hN hn hk hd) hN p hp rfl
      ⟨⟨hs.coherent, hs.covers, hs.initial⟩, rfl⟩ ch hch f body hf hbody L hL

/-- **C125** (ensembles) Ensemble averages of a long run converge to the mean in which every plan that can be reached counts in proportion to the number of pairs
of a node and a label that give a valid plan, divided by its number of cut edges. -/
theorem C125_converges (hs : AnySetting G W a S) (hG : G.WF) (hcut : AlwaysCut G S) (score : (V → Option P) → ℚ) (ε δ : ℚ) (hε : 0 < ε) (hδ : 0 < δ) :
    ∃ n0 : ℕ, ∀ n, n0 ≤ n → ∃ f0 : ℕ, ∀ f, f0 ≤ f → ∀ N, 0 < N → G.nodes.card ∣ N → a.parts.keys.length ∣ N → CutsDivide N G S → ∀ cs, Decides W cs →
      ∀ ch : Chain Tape (PlanState V P), ch.isValid = cs → ∀ body L, n + 1 < body → n * (f * 3) ≤ L →
        1 - δ ≤ avg N L (fun t => listValue (fun x => x.plan.mapping.get?) (fun l => if |(l.map score).sum / l.length -
            (∑ m ∈ S, ((goodPairs G a.parts.keys.toFinset W m).card : ℚ) / (cutPairs G m).card * score m) /
              ∑ m ∈ S, ((goodPairs G a.parts.keys.toFinset W m).card : ℚ) / (cutPairs G m).card| < ε then 1 else 0)
          (ch.list (flipChain (anyMove N G) (cutAccept N G) ⟨a, none⟩ (n + 1 : ℕ)) f body t)) := by
  obtain ⟨n0, h⟩ := rate_converges (R := PlanState V P) (any_cut_walk hs hcut) ⟨_, hs.initial⟩ (any_cut_invariant hs hcut) (any_cut_connects hs hcut) score hε hδ
  refine ⟨n0, fun n hn => ?_⟩
  obtain ⟨f0, h⟩ := h n hn
  refine ⟨f0, ?_⟩
  intro f hf N hN hn hk hd cs hcs ch hch body L hbody hL
  have := h f hf (any_cut_rateLaw (x0 := ⟨a, none⟩) (steps := (n + 1 : ℕ)) hs hG hcut hcs hN hn hk hd) hN rfl ⟨⟨hs.coherent, hs.covers, hs.initial⟩, rfl⟩
    ch hch body L hbody hL
  rw [cutShare_mean] at this
  exact this

/-- **C125** (the last plan) The probability that a long run ends in plan `m` converges to its share. -/
theorem C125_last (hs : AnySetting G W a S) (hG : G.WF) (hcut : AlwaysCut G S) (m : V → Option P) (hm : m ∈ S) (δ : ℚ) (hδ : 0 < δ) :
    ∃ n0 : ℕ, ∀ n, n0 ≤ n → ∃ f0 : ℕ, ∀ f, f0 ≤ f → ∀ N, 0 < N → G.nodes.card ∣ N → a.parts.keys.length ∣ N → CutsDivide N G S → ∀ cs, Decides W cs →
      ∀ ch : Chain Tape (PlanState V P), ch.isValid = cs → ∀ body L, n + 1 < body → n * (f * 3) ≤ L →
        |avg N L (fun t => listValue (fun x => x.plan.mapping.get?) (fun l => if l.getLast? = some m then 1 else 0)
          (ch.list (flipChain (anyMove N G) (cutAccept N G) ⟨a, none⟩ (n + 1 : ℕ)) f body t)) -
            (((goodPairs G a.parts.keys.toFinset W m).card : ℚ) / (cutPairs G m).card) /
              ∑ m' ∈ S, ((goodPairs G a.parts.keys.toFinset W m').card : ℚ) / (cutPairs G m').card| ≤ δ := by
  obtain ⟨n0, h⟩ := rate_last (R := PlanState V P) (any_cut_walk hs hcut) ⟨_, hs.initial⟩ (any_cut_invariant hs hcut) (any_cut_connects hs hcut) hm
    (any_cut_loop hs hcut hm) hm hδ
  refine ⟨n0, fun n hn => ?_⟩
  obtain ⟨f0, h⟩ := h n hn
  refine ⟨f0, ?_⟩
  intro f hf N hN hn hk hd cs hcs ch hch body L hbody hL
  exact h f hf (any_cut_rateLaw (x0 := ⟨a, none⟩) (steps := (n + 1 : ℕ)) hs hG hcut hcs hN hn hk hd) hN rfl ⟨⟨hs.coherent, hs.covers, hs.initial⟩, rfl⟩
    ch hch body L hbody hL

end runs

section objects
variable {D : GraphData V} {ups : List Key} {ops : List (Op V P)} {st : ℕ} {a : Assignment V P} {S : Finset (V → Option P)} {W : (V → Option P) → Bool}
  [DecidableEq (V → Option P)]

/-- **C125** (the last object) The same for runs of partition objects. -/
theorem C125_object_last (hD : D.graph.WF) (hops : ∀ op ∈ ops, op.WF) (hups : Key.cutEdges ∈ ups)
    (hp : ((Heap.after D ups ops).frame.view st).map (·.assignment) = some a) (hd : (Heap.after D ups ops).frame.Shallow 2 st) (hs : AnySetting D.graph W a S)
    (hcut : AlwaysCut D.graph S) (rules : List (Rule V P)) (hr : ∀ r ∈ rules, r.Simple) (hW : Decides W (rules.map (Rule.val D))) (m : V → Option P) (hm : m ∈ S)
    (δ : ℚ) (hδ : 0 < δ) :
    ∃ n0 : ℕ, ∀ n, n0 ≤ n → ∃ f0 : ℕ, ∀ f, f0 ≤ f → ∀ N, 0 < N → D.graph.nodes.card ∣ N → a.parts.keys.length ∣ N → CutsDivide N D.graph S →
      ∀ ch : Chain (World V P Tape) ℕ, ch.isValid = rules.map (Rule.obj 2) → ∀ body L, n + 1 < body → n * (f * 3) ≤ L →
        |avg N L (fun t => seenValue (fun x => x.mapping.get?) (fun l => if l.getLast? = some m then 1 else 0)
          (seenObj (ch.list (objChain (proposeAnyNodeFlip (uniRand N)) (cutAcceptObj (uniRand N) 2) st (n + 1 : ℕ)) f body (startWorld D ups ops t)))) -
            (((goodPairs D.graph a.parts.keys.toFinset W m).card : ℚ) / (cutPairs D.graph m).card) /
              ∑ m' ∈ S, ((goodPairs D.graph a.parts.keys.toFinset W m').card : ℚ) / (cutPairs D.graph m').card| ≤ δ := by
  obtain ⟨n0, h0⟩ := C125_last D.graph W a S hs hD hcut m hm δ hδ
  refine ⟨n0, fun n hn => ?_⟩
  obtain ⟨f0, h1⟩ := h0 n hn
  refine ⟨f0, ?_⟩
  intro f hf N hN hn hk hdiv ch hch body L hbody hL
  have e := any_object_mean hD hops hups le_rfl N L .cutEdge rules hr hp hd (n + 1 : ℕ) f body ch hch ⟨rules.map (Rule.val D), none, ⟨a, none⟩⟩ rfl
    (fun x => x.mapping.get?) (fun l => if l.getLast? = some m then 1 else 0)
  refine le_of_eq_of_le ?_ (h1 f hf N hN hn hk hdiv _ hW ⟨_, none, ⟨a, none⟩⟩ rfl body L hbody hL)
  exact congrArg (fun z => |z - _|) e

end objects

/-- **C125** (why the constraints must exclude them) A child without cut edges makes `cut_edge_accept` raise `ZeroDivisionError`, for every random number; and
without constraints `propose_any_node_flip` can always get to such a plan. -/
theorem C125_no_cuts (N : ℕ) (G : Graph V) (hG : G.WF) (a : Assignment V P) (S : Finset (V → Option P)) (hs : AnySetting G (fun _ => true) a S) :
    (∃ m ∈ S, cutPairs G m = ∅) ∧
      ∀ (x : PlanState V P) (b : Assignment V P), x.parent = some b → cutPairs G x.plan.mapping.get? = ∅ → ∀ t, (cutAccept N G x t).1 = .error .zeroDivision := by
  classical
  constructor
  · obtain ⟨p, hp⟩ := List.exists_mem_of_ne_nil _ hs.labels
    refine ⟨fun v => if v ∈ G.nodes then some p else none, ((C124_free G a S hs).1 _).2 ⟨fun v hv => ⟨p, hp, if_pos hv⟩, fun v hv => if_neg hv⟩, ?_⟩
    refine Finset.eq_empty_of_forall_notMem ?_
    rintro ⟨v, w⟩ h
    obtain ⟨hadj, hne⟩ := (mem_cutPairs hG).1 h
    refine hne ?_
    dsimp only
    rw [if_pos (hG.mem_of_adj hadj).1, if_pos (hG.mem_of_adj hadj).2]
  · intro x b hb h t
    have hc := card_cutPairs hG x.plan.mapping
    rw [h, Finset.card_empty] at hc
    unfold cutAccept
    rw [hb]
    simp only [if_pos (show (cutsOf G x.plan.mapping).card = 0 by omega)]
    rfl

/-- four nodes in a row, no district empty: every such plan has a cut edge -/
example : ∃ S, AnySetting walkPath noneEmpty walkA S ∧ AlwaysCut walkPath S ∧ walkPath.WF := by
  obtain ⟨S, hS⟩ := C124_applies (W := noneEmpty) (G := walkPath) walk_coherent.1 (a := walkA) (by intro v; revert v; decide +kernel) ⟨0, by decide⟩ (by decide +kernel)
  have key : ∀ m : Fin 4 → Option (Fin 2), noneEmpty m = true → (cutPairs walkPath m).Nonempty := by decide +kernel
  exact ⟨S, hS, fun m hm => key m (hS.plan hm).1, by constructor <;> decide⟩

end GC

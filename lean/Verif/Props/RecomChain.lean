import Verif.Props.Recom
import Verif.Props.Seed

/-!
# `recom` with the methods of the library, chains of recombinations (C38, C65)
-/

set_option linter.unusedSectionVars false
set_option autoImplicit false

namespace GC

variable {V P S X : Type} [LinearOrder V] [LinearOrder P]

/-! ### The methods -/

/-- `bipartition_tree`, the default method of `recom` -/
theorem goodMethod_bipartition {A : Type} [DecidableEq A] (R : Rand S) (hR : R.Valid) (spanFn : Graph V → M S (WTree V))
    (hspan : SpanOk spanFn) (nodeRepeats : ℕ) (maxAttempts : Option ℕ)
    (attr : String → V → Option A) (surcharge : Option (Dict String ℚ)) (allow : Bool) (fuel : ℕ) (pop : V → ℚ) :
    GoodMethod (bipMethod R spanFn nodeRepeats maxAttempts attr surcharge allow fuel pop) := by
  obtain ⟨h1, -, h3⟩ := bipMethod_good R hR spanFn hspan nodeRepeats maxAttempts attr surcharge allow fuel pop
  intro H t e o w A w' hH hc hm
  refine ⟨?_, h1 H t e o w A w' hH hc hm⟩
  rw [← Graph.subgraph_self hH] at hm
  exact (h3 H hH H.nodes t e o w A w' (Finset.Subset.refl _) hc hm).1

/-- `bipartition_tree_random` as a method, the default of the class `ReCom` (proposals/tree_proposals.py:270-305) -/
def randMethod (R : Rand S) (spanFn : Graph V → M S (WTree V)) (balance : Bool → PopGraph V → M S (List (Cut V)))
    (nodeRepeats : ℕ) (maxAttempts : Option ℕ) (rep : Bool) (fuel : ℕ) (pop : V → ℚ) : Method V S :=
  fun H t e o => bipartitionTreeRandom R spanFn balance nodeRepeats maxAttempts rep fuel none o H pop t e

theorem goodMethod_random (R : Rand S) (hR : R.Valid) (spanFn : Graph V → M S (WTree V)) (hspan : SpanOk spanFn)
    (bal : Bool → PopGraph V → M S (List (Cut V))) (hbal : BalanceOk bal) (nodeRepeats : ℕ) (maxAttempts : Option ℕ)
    (rep : Bool) (fuel : ℕ) (pop : V → ℚ) : GoodMethod (randMethod R spanFn bal nodeRepeats maxAttempts rep fuel pop) := by
  intro H t e o w A w' hH hc hm
  obtain ⟨-, h⟩ := C35_random_partial R hR spanFn hspan bal hbal nodeRepeats maxAttempts rep fuel o H hH hc none (by simp) pop t e
    w w' (some A) hm
  obtain ⟨h1, h2, h3, -⟩ := h A rfl
  exact ⟨h1, h2, h3⟩

/-- **C38** for `recom` with its default method `bipartition_tree` and random spanning trees (gerrychain/tree.py:60-94), for
every region surcharge, number of repeats and number of attempts. -/
theorem C38_default {A : Type} [DecidableEq A] (R : Rand X) (hR : R.Valid) (attr : String → V → Option A)
    (surcharge : Option (Dict String ℚ)) (nodeRepeats : ℕ) (maxAttempts : Option ℕ) (allow : Bool) (bipFuel : ℕ)
    (pop : V → ℚ) (target eps : ℚ) (fuel limit st q : ℕ) (s s1 : World V P X) (hs : HeapInv s.1) (v : View V P)
    (hv : s.1.frame.view st = some v) (hc : ContiguousPlan s.1.frame.data.graph v.assignment)
    (h : recom R (bipMethod R (randomSpanningTree R attr surcharge) nodeRepeats maxAttempts attr surcharge allow bipFuel pop)
      pop target eps fuel limit st s = (.ok q, s1)) :
    ∃ w, s1.1.frame.view q = some w ∧ w.parent = some st ∧ (∀ v', s.1.frame.view q ≠ some v') ∧
      (∃ p p', Recombined s.1.frame.data.graph pop target eps p p' v.assignment w.assignment) ∧
      ContiguousPlan s.1.frame.data.graph w.assignment ∧
      w.assignment.parts.keys.length = v.assignment.parts.keys.length :=
  C38_recom R hR _ (goodMethod_bipartition R hR _ (spanOk_random hR attr surcharge) nodeRepeats maxAttempts attr surcharge allow
    bipFuel pop) pop target eps fuel limit st q s s1 hs v hv hc h

/-! ### Chains -/

/-- a proposal that returns the partition itself or a recombination of two districts, when the plan is contiguous -/
structure Recombining (pop : V → ℚ) (target eps : ℚ) (prop : ℕ → M (World V P X) ℕ) : Prop where
  flip : FlipProposal prop
  step : ∀ st s q s1 v, HeapInv s.1 → s.1.frame.view st = some v → ContiguousPlan s.1.frame.data.graph v.assignment →
    prop st s = (.ok q, s1) → q = st ∨ ∃ w, s1.1.frame.view q = some w ∧
      ∃ p p', Recombined s.1.frame.data.graph pop target eps p p' v.assignment w.assignment

theorem recom_recombining {R : Rand X} (hR : R.Valid) {method : Method V X} (hm : GoodMethod method) {pop : V → ℚ}
    {target eps : ℚ} {fuel limit : ℕ} :
    Recombining pop target eps (recom R method pop target eps fuel limit : ℕ → M (World V P X) ℕ) := by
  refine ⟨recom_flipProposal hR, ?_⟩
  intro st s q s1 v hs hv hc h
  obtain ⟨w, h1, -, -, h2, -⟩ := C38_recom R hR method hm pop target eps fuel limit st q s s1 hs v hv hc h
  exact .inr ⟨w, h1, h2⟩

/-- all districts have populations within `eps` of the target -/
def BalancedPlan (pop : V → ℚ) (target eps : ℚ) (a : Assignment V P) : Prop :=
  ∀ part s, a.parts.get? part = some s → target * (1 - eps) ≤ ∑ v ∈ s, pop v ∧ ∑ v ∈ s, pop v ≤ target * (1 + eps)

theorem Recombined.balanced {G : Graph V} {pop : V → ℚ} {target eps : ℚ} {p q : P} {a b : Assignment V P}
    (h : Recombined G pop target eps p q a b) (hb : BalancedPlan pop target eps a) : BalancedPlan pop target eps b := by
  intro x s hs
  by_cases hx : x = p ∨ x = q
  · obtain ⟨t, h1, -, -, h2⟩ := h.new x hx
    rw [hs] at h1; cases h1
    exact h2
  · rw [not_or] at hx
    rw [h.others x hx.1 hx.2] at hs
    exact hb x s hs

/-- The plan of `r` is contiguous, has the labels `K`, and is balanced if `B`. -/
def GoodRecom (pop : V → ℚ) (target eps : ℚ) (K : List P) (B : Prop) (G : Graph V) (s : World V P X) (r : ℕ) : Prop :=
  ∃ v, s.1.frame.view r = some v ∧ s.1.frame.data.graph = G ∧ ContiguousPlan G v.assignment ∧ v.assignment.parts.keys = K ∧
    (B → BalancedPlan pop target eps v.assignment)

theorem GoodRecom.stable {pop : V → ℚ} {target eps : ℚ} {K : List P} {B : Prop} {G : Graph V} {s s' : World V P X} {r : ℕ}
    (hs : HeapInv s.1) (h : Reaches s s') (hg : GoodRecom pop target eps K B G s r) : GoodRecom pop target eps K B G s' r := by
  obtain ⟨v, hv, hG, h1, h2, h3⟩ := hg
  obtain ⟨-, hst⟩ := h.stable hs
  obtain ⟨v', e1, e2⟩ := hst.view r v hv
  exact ⟨v', e1, by rw [hst.data]; exact hG, by rw [e2]; exact h1, by rw [e2]; exact h2, by rw [e2]; exact h3⟩

/-- **C65** A chain whose proposals recombine districts (such as `recom`), started on a contiguous plan, yields only contiguous
plans with the same district labels; if the districts of the first plan are within `eps` of the target, so are those of every
plan.  For every graph, constraints, acceptance function, random outcome and length. -/
theorem C65_recom_chain {c : ChainCfg (World V P X) ℕ} {cs : List (Constraint (World V P X) ℕ)} (h : HeapChain c cs)
    (pop : V → ℚ) (target eps : ℚ) (hp : Recombining pop target eps c.proposal) (s0 : World V P X) (hs0 : HeapInv s0.1)
    (v0 : View V P) (hv0 : s0.1.frame.view c.initial = some v0) (hc0 : ContiguousPlan s0.1.frame.data.graph v0.assignment)
    (fuel body : ℕ) (s' : World V P X) (ys : List ℕ) (ch' : Chain (World V P X) ℕ)
    (hl : Chain.list c fuel body ⟨cs, none, c.initial⟩ s0 = some (.ok ys, ch', s')) :
    ∀ y ∈ ys, ∃ v, s'.1.frame.view y = some v ∧ ContiguousPlan s0.1.frame.data.graph v.assignment ∧
      v.assignment.parts.keys = v0.assignment.parts.keys ∧
      (BalancedPlan pop target eps v0.assignment → BalancedPlan pop target eps v.assignment) := by
  have key := collect_good (ch := Chain.iter c ⟨cs, none, c.initial⟩) (k := 0) h
    (GoodRecom pop target eps v0.assignment.parts.keys (BalancedPlan pop target eps v0.assignment) s0.1.frame.data.graph)
    (fun s s' r a b c => GoodRecom.stable a b c) ?_ hs0 (Frame.lt_of_view hv0) ⟨v0, hv0, rfl, hc0, rfl, id⟩ rfl hl
  · intro y hy
    obtain ⟨v, h1, -, h3, h4, h5⟩ := key y hy
    exact ⟨v, h1, h3, h4, h5⟩
  · intro st q s s1 s3 hs hst hg hprop hpass
    have r1 := h.proposal.reaches st s
    rw [hprop] at r1
    have r2 : Reaches s1 (c.erase st s1) := by rw [h.erase]; exact erase_reaches st s1
    have r3 := allPass_reaches h.constraint hpass
    obtain ⟨v, hv, hG, h1, h2, h3⟩ := hg
    rcases hp.step st s q s1 v hs hv (hG ▸ h1) hprop with rfl | ⟨w, hw, p, p', hrec⟩
    · exact GoodRecom.stable hs ((r1.trans r2).trans r3) ⟨v, hv, hG, h1, h2, h3⟩
    · obtain ⟨hi1, hst1⟩ := r1.stable hs
      refine GoodRecom.stable hi1 (r2.trans r3) ⟨w, hw, ?_, ?_, ?_, ?_⟩
      · have : s1.1.frame.data = s.1.frame.data := hst1.data
        rw [this]; exact hG
      · rw [← hG] at h1 ⊢; exact hrec.contiguous h1
      · rw [hrec.keys]; exact h2
      · exact fun hb => hrec.balanced (h3 hb)

/-! ### Example -/

/-- the path 0-1-2-3-4-5 with the cut edges updater -/
def exLineData : GraphData ℕ := { exData with graph := exLine }

/-- three districts of two nodes in a row -/
def exLineDict : Dict ℕ ℕ := ⟨[(0, 1), (1, 1), (2, 2), (3, 2), (4, 3), (5, 3)]⟩

/-- a method that returns the lowest nodes -/
def lowMethod : Method ℕ (List ℕ) := bipMethod tapeRand (randomSpanningTree tapeRand (fun _ _ => (none : Option ℕ)) none) 1 (some 5)
  (fun _ _ => (none : Option ℕ)) none false 9 (fun _ => 1)

/-- `recom` as the proposal of a chain of length 3, target 2, tolerance 1/2 -/
def exRecomCfg : ChainCfg (World ℕ ℕ (List ℕ)) ℕ where
  proposal := recom tapeRand lowMethod (fun _ => 1) 2 (1/2) 9 20
  accept _ s := (.ok true, s)
  erase := World.erase
  totalSteps := 3
  initial := 0

/-- the hypotheses of C38 and C65 are met, and the chain runs; the plans change -/
example : GoodMethod lowMethod ∧ HeapChain exRecomCfg [] ∧ Recombining (fun _ => 1) 2 (1/2) exRecomCfg.proposal ∧
    (((Heap.after exLineData exUps [.create exLineDict]).frame.view 0).map (fun v => v.assignment.mapping)) = some exLineDict ∧
    ((Chain.list exRecomCfg 9 9 ⟨[], none, 0⟩ (Heap.after exLineData exUps [.create exLineDict], [1, 1, 0, 0, 1, 1])).map (fun r =>
      (r.1.toOption, (r.2.2.1.frame.view 1).map (fun v => v.assignment.mapping.entries),
        (r.2.2.1.frame.view 2).map (fun v => v.assignment.mapping.entries)))) =
    some (some [0, 1, 2], some [(0, 1), (1, 1), (2, 2), (3, 2), (4, 2), (5, 3)],
      some [(0, 2), (1, 2), (2, 1), (3, 1), (4, 1), (5, 3)]) := by
  refine ⟨goodMethod_bipartition _ tapeRand_valid _ (spanOk_random tapeRand_valid _ _) _ _ _ _ _ _ _, ?_,
    recom_recombining tapeRand_valid (goodMethod_bipartition _ tapeRand_valid _ (spanOk_random tapeRand_valid _ _) _ _ _ _ _ _ _),
    by decide +kernel, by decide +kernel⟩
  exact ⟨rfl, recom_flipProposal tapeRand_valid, by simp, fun r s => ⟨[], by simp, rfl⟩⟩

end GC

import Verif.Props.AnyRuns
import Verif.Props.ObjFlips

/-!
# Runs of `propose_any_node_flip` on partition objects (C124)

The runs of `Props/AnyRuns` are runs of plans.  Here the same is shown for `MarkovChain` on partition objects with their parents, updaters and caches
(partition/partition.py:28-185, chain.py:166-196), for constraints that read the plan or the number of cut edges.  `contiguous` is not among them: it raises
`NetworkXPointlessConcept` when a flip empties a district (`C24_emptied_district`).
-/

set_option linter.unusedSectionVars false
set_option autoImplicit false

namespace GC

variable {V P : Type} [LinearOrder V] [LinearOrder P]

section theorems
variable {D : GraphData V} {ups : List Key} {ops : List (Op V P)} {limit st : ℕ} {a : Assignment V P} {S : Finset (V → Option P)}
  {W : (V → Option P) → Bool}

theorem anyNodeFlip_wf {X : Type} {R : Rand X} {G : Graph V} {a : Assignment V P} {w w' : X} {flips : Dict V P}
    (h : (do return some (← anyNodeFlip R G a) : M X (Option (Dict V P))) w = (.ok (some flips), w')) : flips.WF := by
  obtain ⟨d, w1, h1, g1⟩ := M.bind_eq_ok h
  cases g1
  unfold anyNodeFlip at h1
  obtain ⟨n, w2, h2, g2⟩ := M.bind_eq_ok h1
  obtain ⟨l, w3, h3, g3⟩ := M.bind_eq_ok g2
  cases g3
  exact one_wf _ _

/-- `propose_any_node_flip` on objects makes the move of `anyMove` on plans. -/
theorem any_same (N : ℕ) : SameMove limit D ups (fun _ => True) (fun _ _ => True) (proposeAnyNodeFlip (uniRand N) : ℕ → M (World V P Tape) ℕ) (anyMove N D.graph) := by
  refine sameMove_of_flips (f := fun a => do return some (← anyNodeFlip (uniRand N) D.graph a)) (fun x => (some_bind x).symm) (fun s st a hs ha hd => ?_)
    (fun a w flips w' h => anyNodeFlip_wf h) (fun _ _ _ _ _ _ _ _ _ => trivial) (fun _ _ _ _ _ _ _ _ _ _ _ => trivial)
  obtain ⟨v, hv, rfl⟩ := World.plan_eq_some.1 ha
  refine ⟨[], by simp, ?_⟩
  unfold proposeAnyNodeFlip
  rw [M.bind_ok (show viewObj st s = (.ok v, s) by unfold viewObj; rw [hv]),
    M.bind_ok (show (M.read : M (World V P Tape) (World V P Tape)) s = (.ok s, s) from rfl), hs.graph]
  exact onRest_some _ st s

theorem any_sameChain (h2 : 2 ≤ limit) (N : ℕ) (acc : AcceptKind) {rules : List (Rule V P)} (hr : ∀ r ∈ rules, r.Simple) (st : ℕ) (x : PlanState V P) (n : ℤ) :
    SameChain limit D ups (fun _ => True) (fun _ _ => True) (objChain (proposeAnyNodeFlip (uniRand N)) (acc.obj (uniRand N) limit) st n) (rules.map (Rule.obj limit))
      (flipChain (anyMove N D.graph) (acc.val N D.graph) x n) (rules.map (Rule.val D)) where
  two := h2
  erase := rfl
  erase' := fun _ _ => rfl
  steps := rfl
  proposal := any_same N
  constraint := .of_forall (forall₂_rules (fun r hr' => Rule.same_simple (hr r hr')))
  accept := accept_kind_same N acc
  keeps := fun _ _ _ _ _ _ _ _ => trivial

/-- **C124** (objects) For every history of partition objects, both acceptance functions, all constraints on the plan or on the number of cut edges, every length
and every tape: building the chain on an object and reading the whole chain shows the plans of the chain of plans, or the same exception, and leaves the same
random numbers. -/
theorem C124_objects (hD : D.graph.WF) (hops : ∀ op ∈ ops, op.WF) (hcut : Key.cutEdges ∈ ups) (h2 : 2 ≤ limit) (N : ℕ) (acc : AcceptKind)
    (rules : List (Rule V P)) (hr : ∀ r ∈ rules, r.Simple) (t : Tape) (hp : (startWorld D ups ops t).plan st = some a)
    (hd : (Heap.after D ups ops).frame.Shallow limit st) (n : ℤ) (fuel body : ℕ) :
    runObj (objChain (proposeAnyNodeFlip (uniRand N)) (acc.obj (uniRand N) limit) st n) (rules.map (Rule.obj limit)) fuel body (startWorld D ups ops t) =
      runPlans (flipChain (anyMove N D.graph) (acc.val N D.graph) ⟨a, (startWorld D ups ops t).parentPlan st⟩ n) (rules.map (Rule.val D)) fuel body t :=
  run_same (any_sameChain h2 N acc hr st ⟨a, (startWorld D ups ops t).parentPlan st⟩ n)
    (forall₂_rules (C := fun _ _ => True) (fun r hr' => Rule.same_simple (hr r hr'))) (start_stage hD hops hcut t) ⟨hp, rfl, ancestor_of_shallow hd⟩ trivial trivial fuel body

/-- the mean over runs of objects is the mean over runs of plans -/
theorem any_object_mean (hD : D.graph.WF) (hops : ∀ op ∈ ops, op.WF) (hcut : Key.cutEdges ∈ ups) (h2 : 2 ≤ limit) (N L : ℕ) (acc : AcceptKind)
    (rules : List (Rule V P)) (hr : ∀ r ∈ rules, r.Simple) (hp : ((Heap.after D ups ops).frame.view st).map (·.assignment) = some a)
    (hd : (Heap.after D ups ops).frame.Shallow limit st) (n : ℤ) (fuel body : ℕ) (ch : Chain (World V P Tape) ℕ) (hch : ch.isValid = rules.map (Rule.obj limit))
    (ch' : Chain Tape (PlanState V P)) (hch' : ch'.isValid = rules.map (Rule.val D)) {α : Type} (φ : Assignment V P → α) (F : List α → ℚ) :
    avg N L (fun t => seenValue φ F (seenObj (ch.list (objChain (proposeAnyNodeFlip (uniRand N)) (acc.obj (uniRand N) limit) st n) fuel body (startWorld D ups ops t)))) =
      avg N L (fun t => listValue (fun x => φ x.plan) F (ch'.list (flipChain (anyMove N D.graph) (acc.val N D.graph) ⟨a, none⟩ n) fuel body t)) :=
  avg_congr N L (fun t => by
    rw [list_same (any_sameChain h2 N acc hr st ⟨a, none⟩ n) (start_stage hD hops hcut t) hp (ancestor_of_shallow hd) trivial hch hch' fuel body, seenValue_seen])

variable [DecidableEq (V → Option P)]

/-- **C124** (ensembles of objects) Ensemble averages over a long run of partition objects converge to the mean in which every plan that can be reached counts
in proportion to the number of pairs of a node and a label that give a valid plan. -/
theorem C124_object_converges (hD : D.graph.WF) (hops : ∀ op ∈ ops, op.WF) (hcut : Key.cutEdges ∈ ups)
    (hp : ((Heap.after D ups ops).frame.view st).map (·.assignment) = some a) (hd : (Heap.after D ups ops).frame.Shallow 2 st) (hs : AnySetting D.graph W a S)
    (rules : List (Rule V P)) (hr : ∀ r ∈ rules, r.Simple) (hW : Decides W (rules.map (Rule.val D))) (score : (V → Option P) → ℚ) (ε δ : ℚ) (hε : 0 < ε) (hδ : 0 < δ) :
    ∃ n0 : ℕ, ∀ n, n0 ≤ n → ∃ f0 : ℕ, ∀ f, f0 ≤ f → ∀ N, 0 < N → D.graph.nodes.card ∣ N → a.parts.keys.length ∣ N →
      ∀ ch : Chain (World V P Tape) ℕ, ch.isValid = rules.map (Rule.obj 2) → ∀ body L, n + 1 < body → n * (f * 2) ≤ L →
        1 - δ ≤ avg N L (fun t => seenValue (fun x => x.mapping.get?) (fun l => if |(l.map score).sum / l.length -
            ∑ m ∈ S, ((goodPairs D.graph a.parts.keys.toFinset W m).card / ∑ m' ∈ S, ((goodPairs D.graph a.parts.keys.toFinset W m').card : ℚ)) * score m| < ε then 1 else 0)
          (seenObj (ch.list (objChain (proposeAnyNodeFlip (uniRand N)) alwaysAcceptObj st (n + 1 : ℕ)) f body (startWorld D ups ops t)))) := by
  obtain ⟨n0, h0⟩ := C124_converges D.graph W a S hs score ε δ hε hδ
  refine ⟨n0, fun n hn => ?_⟩
  obtain ⟨f0, h1⟩ := h0 n hn
  refine ⟨f0, ?_⟩
  intro f hf N hN hn hk ch hch body L hbody hL
  exact (h1 f hf N hN hn hk _ hW ⟨_, none, ⟨a, none⟩⟩ rfl body L hbody hL).trans
    (any_object_mean hD hops hcut le_rfl N L .always rules hr hp hd _ f body ch hch ⟨_, none, ⟨a, none⟩⟩ rfl (fun x => x.mapping.get?) _).ge

/-- **C124** (the last object) The probability that a long run of partition objects ends in plan `m` converges to its share. -/
theorem C124_object_last (hD : D.graph.WF) (hops : ∀ op ∈ ops, op.WF) (hcut : Key.cutEdges ∈ ups)
    (hp : ((Heap.after D ups ops).frame.view st).map (·.assignment) = some a) (hd : (Heap.after D ups ops).frame.Shallow 2 st) (hs : AnySetting D.graph W a S)
    (rules : List (Rule V P)) (hr : ∀ r ∈ rules, r.Simple) (hW : Decides W (rules.map (Rule.val D))) (m : V → Option P) (hm : m ∈ S) (δ : ℚ) (hδ : 0 < δ) :
    ∃ n0 : ℕ, ∀ n, n0 ≤ n → ∃ f0 : ℕ, ∀ f, f0 ≤ f → ∀ N, 0 < N → D.graph.nodes.card ∣ N → a.parts.keys.length ∣ N →
      ∀ ch : Chain (World V P Tape) ℕ, ch.isValid = rules.map (Rule.obj 2) → ∀ body L, n + 1 < body → n * (f * 2) ≤ L →
        |avg N L (fun t => seenValue (fun x => x.mapping.get?) (fun l => if l.getLast? = some m then 1 else 0)
          (seenObj (ch.list (objChain (proposeAnyNodeFlip (uniRand N)) alwaysAcceptObj st (n + 1 : ℕ)) f body (startWorld D ups ops t)))) -
            (goodPairs D.graph a.parts.keys.toFinset W m).card / ∑ m' ∈ S, ((goodPairs D.graph a.parts.keys.toFinset W m').card : ℚ)| ≤ δ := by
  obtain ⟨n0, h0⟩ := C124_last D.graph W a S hs m hm δ hδ
  refine ⟨n0, fun n hn => ?_⟩
  obtain ⟨f0, h1⟩ := h0 n hn
  refine ⟨f0, ?_⟩
  intro f hf N hN hn hk ch hch body L hbody hL
  have e := any_object_mean hD hops hcut le_rfl N L .always rules hr hp hd (n + 1 : ℕ) f body ch hch ⟨rules.map (Rule.val D), none, ⟨a, none⟩⟩ rfl (fun x => x.mapping.get?)
    (fun l => if l.getLast? = some m then 1 else 0)
  refine le_of_eq_of_le ?_ (h1 f hf N hN hn hk _ hW ⟨_, none, ⟨a, none⟩⟩ rfl body L hbody hL)
  exact congrArg (fun z => |z - _|) e

end theorems

/-- a constraint on the plan: no district is empty -/
def ringFull : Rule (Fin 4) (Fin 2) := .plan (fun b => .ok (.bool (noneEmpty b.mapping.get?))) (some "full")

/-- the hypotheses of C124 for objects: the object 1 of a ring of four nodes, which is the child of another one -/
example : ringData.graph.WF ∧ (∀ op ∈ ringOps, op.WF) ∧ Key.cutEdges ∈ ringUps ∧
    ((Heap.after ringData ringUps ringOps).frame.view 1).map (·.assignment) = some ringB ∧ (Heap.after ringData ringUps ringOps).frame.Shallow 2 1 ∧
    (∃ S, AnySetting ringData.graph noneEmpty ringB S) ∧ (∀ r ∈ [ringFull], r.Simple) ∧ Decides noneEmpty ([ringFull].map (Rule.val ringData)) := by
  refine ⟨ring_positive.1, ringOps_wf, by decide, ringOps_view.1, ring_shallow, C124_applies ring_coherent.2 ?_ ⟨0, by decide⟩ (by decide +kernel), ?_, ?_⟩
  · exact (start_stage ring_positive.1 ringOps_wf (by decide) ([] : Tape)).covers (st := 1) ringOps_view.1
  · intro r hr
    rw [List.mem_singleton.1 hr]
    trivial
  · intro x t
    show validator x [_] t = _
    rw [validator_bool (b := noneEmpty x.plan.mapping.get?) rfl]
    cases noneEmpty x.plan.mapping.get? <;> rfl

end GC

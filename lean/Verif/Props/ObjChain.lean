import Verif.Lemmas.ObjChain
import Verif.Props.RecomRuns
import Verif.Props.FlipRuns
import Verif.Props.Constraints

/-!
# C106: chains of partition objects make the moves of chains of plans

The chains of C76, C77 and C103 – C105 have plans as their states.  Here the states are partition objects, with caches of updaters, with parents, and with a
recursion limit for the look-ups.  For every history of objects before the chain and every run, `list(chain)` on objects gives the plans, the exception and
the remaining random numbers of `list(chain)` on plans.  In particular a run never exceeds the recursion limit, however long it is.
-/

set_option linter.unusedSectionVars false
set_option autoImplicit false

namespace GC

variable {V P X : Type} [LinearOrder V] [LinearOrder P]

/-! ### The proposals -/

/-- the end of a proposal on objects: `return partition` or `return partition.flip(flips)` -/
def finishObj (st : ℕ) : Option (Dict V P) → M (World V P X) ℕ
  | none => pure st
  | some flips => flipObj st flips

/-- the end of a proposal on values -/
def finishPlan (x : PlanState V P) : Option (Dict V P) → M X (PlanState V P)
  | none => pure ⟨x.plan, none⟩
  | some flips => M.lift (x.flip flips)

section moves
variable {limit : ℕ} {D : GraphData V} {ups : List Key} {I : Assignment V P → Prop} {C : Option (Dict V P) → PlanState V P → Prop}

theorem Stage.wf {s : World V P X} (hs : Stage D ups s) : D.graph.WF := by
  rw [← hs.graph]
  exact hs.inv.frame.graph

theorem flipsOf_erase (s : World V P X) {r r' : ℕ} (hne : r' ≠ r) : (World.erase r s).flipsOf r' = s.flipsOf r' := by
  unfold World.flipsOf World.erase Heap.step Frame.eraseParent
  simp only
  rcases ho : s.1.frame.objs[r]? with _ | o
  · rfl
  · unfold Frame.view
    simp [List.getElem?_set, hne.symm]

theorem flipsOf_push (F : Frame V P) (b : Assignment V P) (parent : Option ℕ) (flips : Option (Dict V P)) (flows : Option (Dict P (Flow V)))
    (ef : Option (Dict P (Flow (V × V)))) (c : Caches V P) (x : X) :
    World.flipsOf ((⟨F.push b parent flips flows ef, c⟩, x) : World V P X) F.objs.length = flips := by
  unfold World.flipsOf Frame.view Frame.push
  simp

theorem finish_same {s : World V P X} (hs : Stage D ups s) {st : ℕ} {x : PlanState V P} (hp : s.plan st = some x.plan) (r : Option (Dict V P))
    (hr : ∀ flips, r = some flips → flips.WF) (h0 : r = none → ∀ fl, C fl ⟨x.plan, none⟩)
    (h1 : ∀ flips b, r = some flips → x.plan.flip flips = .ok b → C (some flips) ⟨b, some x.plan⟩) :
    (finishObj st r s).2.2 = (finishPlan x r s.2).2 ∧ Reaches s (finishObj st r s).2 ∧
      SameResult C st (finishObj st r s).2 (finishObj st r s).1 (finishPlan x r s.2).1 := by
  rcases r with _ | flips
  · refine ⟨rfl, Reaches.refl _, ?_, h0 rfl _⟩
    have hpar : World.parent (World.erase st s) st = none := parent_erase_self _ _
    refine ⟨plan_reaches hs.inv (erase_reaches _ _) hp, ?_, ?_⟩
    · show (World.parent (World.erase st s) st).bind _ = none
      rw [hpar]
      rfl
    · show (World.parent (World.erase st s) st).bind _ = none
      rw [hpar]
      rfl
  · obtain ⟨v, hv, hva⟩ := World.plan_eq_some.1 hp
    have hwf := hr flips rfl
    obtain ⟨g1, g2⟩ := flip_frame hs.inv.frame hwf hv
    rw [hva] at g1 g2
    have hx : ∀ b, x.plan.flip flips = .ok b → x.flip flips = .ok ⟨b, some x.plan⟩ := by
      intro b hb
      unfold PlanState.flip
      rw [hb]
      rfl
    have hxe : ∀ e, x.plan.flip flips = .error e → x.flip flips = .error e := by
      intro e hb
      unfold PlanState.flip
      rw [hb]
      rfl
    rcases hb : x.plan.flip flips with e | b
    · have ho : finishObj st (some flips) s = (.error e, s) := by
        show flipObj st flips s = _
        unfold flipObj
        rw [g1 e hb]
      have ho' : finishPlan x (some flips) s.2 = (.error e, s.2) := by
        show (x.flip flips, s.2) = _
        rw [hxe e hb]
      rw [ho, ho']
      exact ⟨rfl, Reaches.refl _, rfl⟩
    · obtain ⟨flows, ef, k1, -⟩ := g2 b hb
      obtain ⟨-, k3, v2, b2, k4, k5, w, k6, k7, k8⟩ := hs.inv.frame.flip hwf k1
      rw [hv] at k4
      cases k4
      rw [hva, hb] at k5
      cases k5
      set F := s.1.frame.push b (some st) (some flips) (some flows) ef with hF
      have ho : finishObj st (some flips) s = (.ok s.1.frame.objs.length, (⟨F, s.1.caches⟩, s.2)) := by
        show flipObj st flips s = _
        unfold flipObj
        rw [k1]
      have ho' : finishPlan x (some flips) s.2 = (.ok ⟨b, some x.plan⟩, s.2) := by
        show (x.flip flips, s.2) = _
        rw [hx b hb]
      rw [ho, ho']
      have hreach : Reaches s ((⟨F, s.1.caches⟩, s.2) : World V P X) := by
        refine ⟨[.flip st flips], by intro op hop; simp only [List.mem_singleton] at hop; subst hop; exact hwf, ?_⟩
        show _ = s.1.step (.flip st flips)
        unfold Heap.step
        simp only
        rw [k1]
      set s1 : World V P X := (⟨F, s.1.caches⟩, s.2) with hs1
      have hlt : st < s.1.frame.objs.length := Frame.lt_of_view hv
      have hne : s.1.frame.objs.length ≠ st := by omega
      have hfl : (World.erase st s1).flipsOf s.1.frame.objs.length = some flips := by
        rw [flipsOf_erase _ hne]
        exact flipsOf_push _ _ _ _ _ _ _ _
      refine ⟨rfl, hreach, ?_, by rw [hfl]; exact h1 flips b rfl hb⟩
      have hpar : World.parent (World.erase st s1) s.1.frame.objs.length = some st := by
        rw [parent_erase_ne _ hne, parent_of_view (s := s1) k6, k8]
      have hpar0 : World.parent (World.erase st s1) st = none := parent_erase_self _ _
      have hr1 := (hs.reaches hreach).inv
      refine ⟨?_, ?_, ?_⟩
      · refine plan_reaches hr1 (erase_reaches _ _) ?_
        exact World.plan_eq_some.2 ⟨w, k6, k7⟩
      · show (World.parent (World.erase st s1) s.1.frame.objs.length).bind _ = _
        rw [hpar]
        exact plan_reaches hs.inv (hreach.trans (erase_reaches _ _)) hp
      · show (World.parent (World.erase st s1) s.1.frame.objs.length).bind _ = none
        rw [hpar]
        show (World.parent (World.erase st s1) st).bind _ = none
        rw [hpar0]
        rfl

/-- A proposal that looks updaters up, computes flips of the plan and flips. -/
theorem sameMove_of_flips {f : Assignment V P → M X (Option (Dict V P))} {prop : ℕ → M (World V P X) ℕ} {move : PlanState V P → M X (PlanState V P)}
    (hmove : ∀ x, move x = f x.plan >>= finishPlan x)
    (hprop : ∀ (s : World V P X) st a, Stage D ups s → s.plan st = some a → ancestor (World.parent s) limit st = none →
      ∃ ops : List (Op V P), (∀ op ∈ ops, op.IsLookup) ∧ prop st s = (M.onRest (f a) >>= finishObj st) (s.1.run ops, s.2))
    (hwf : ∀ a w flips w', f a w = (.ok (some flips), w') → flips.WF)
    (h0 : ∀ a w w', D.graph.WF → a.Coherent → a.Covers D.graph.nodes → I a → f a w = (.ok none, w') → ∀ fl, C fl ⟨a, none⟩)
    (h1 : ∀ a w w' flips b, D.graph.WF → a.Coherent → a.Covers D.graph.nodes → I a → f a w = (.ok (some flips), w') → a.flip flips = .ok b → C (some flips) ⟨b, some a⟩) :
    SameMove limit D ups I C prop move := by
  intro s st x hs hp hd hI
  obtain ⟨ops, ho, he⟩ := hprop s st x.plan hs hp hd
  have hreach : Reaches s ((s.1.run ops, s.2) : World V P X) := ⟨ops, lookups_wf ho, rfl⟩
  rw [he, hmove]
  rcases hf : f x.plan s.2 with ⟨e | r, x'⟩
  · have e1 : (M.onRest (f x.plan) >>= finishObj st) ((s.1.run ops, s.2) : World V P X) = (.error e, (s.1.run ops, x')) :=
      M.bind_error (by unfold M.onRest; simp only; rw [hf])
    have e2 : (f x.plan >>= finishPlan x) s.2 = (.error e, x') := M.bind_error hf
    rw [e1, e2]
    exact ⟨rfl, ⟨ops, lookups_wf ho, rfl⟩, rfl⟩
  · have e1 : (M.onRest (f x.plan) >>= finishObj st) ((s.1.run ops, s.2) : World V P X) = finishObj st r (s.1.run ops, x') :=
      M.bind_ok (by unfold M.onRest; simp only; rw [hf])
    have e2 : (f x.plan >>= finishPlan x) s.2 = finishPlan x r x' := M.bind_ok hf
    rw [e1, e2]
    have hreach' : Reaches s ((s.1.run ops, x') : World V P X) := ⟨ops, lookups_wf ho, rfl⟩
    have hs' : Stage D ups ((s.1.run ops, x') : World V P X) := hs.reaches hreach'
    have hp' : World.plan ((s.1.run ops, x') : World V P X) st = some x.plan := plan_reaches hs.inv hreach' hp
    obtain ⟨k1, k2, k3⟩ := finish_same hs' hp' r (fun flips hr => hwf x.plan s.2 flips x' (by rw [hf, hr]))
      (fun hr => h0 x.plan s.2 x' hs.wf (hs.coherent hp) (hs.covers hp) hI (by rw [hf, hr]))
      (fun flips b hr hb => h1 x.plan s.2 x' flips b hs.wf (hs.coherent hp) (hs.covers hp) hI (by rw [hf, hr]) hb)
    exact ⟨k1, hreach'.trans k2, k3⟩

theorem proposeWith_cuts {f : Graph V → Assignment V P → Finset (V × V) → M X (Option (Dict V P))} {s : World V P X} {st : ℕ} {a : Assignment V P}
    (hs : Stage D ups s) (ha : s.plan st = some a) (hd : ancestor (World.parent s) limit st = none) :
    ∃ ops : List (Op V P), (∀ op ∈ ops, op.IsLookup) ∧
      proposeWith .cutEdges Val.asEdgeSet f limit st s = (M.onRest (f D.graph a (cutsOf D.graph a.mapping)) >>= finishObj st) (s.1.run ops, s.2) := by
  obtain ⟨v, hv, rfl⟩ := World.plan_eq_some.1 ha
  refine ⟨[.lookup st .cutEdges limit], by simp [Op.IsLookup], ?_⟩
  unfold proposeWith
  rw [M.bind_ok (show viewObj st s = (.ok v, s) by unfold viewObj; rw [hv]),
    M.bind_ok (show (M.read : M (World V P X) (World V P X)) s = (.ok s, s) from rfl), M.bind_ok (lookup_cuts hs ha hd), hs.graph]
  rw [M.bind_ok (show M.lift (Val.asEdgeSet (.edgeSet (cutsOf D.graph v.assignment.mapping))) (s.1.step (.lookup st .cutEdges limit), s.2) =
    (.ok (cutsOf D.graph v.assignment.mapping), (s.1.step (.lookup st .cutEdges limit), s.2)) from rfl)]
  have : ∀ m : M (World V P X) (Option (Dict V P)), ∀ g g' : Option (Dict V P) → M (World V P X) ℕ, (∀ r, g r = g' r) → m >>= g = m >>= g' := by
    intro m g g' h
    rw [funext h]
  refine congrFun (this _ _ _ (fun r => ?_)) _
  cases r <;> rfl

theorem some_bind {m : M X (Dict V P)} (x : PlanState V P) : (do return some (← m) : M X (Option (Dict V P))) >>= finishPlan x = (do
    let f ← m
    M.lift (x.flip f)) := by
  rw [M.bind_assoc']
  rfl

theorem slowFlip_wf {R : Rand X} {a : Assignment V P} {cuts : Finset (V × V)} {w w' : X} {flips : Dict V P}
    (h : (do return some (← slowFlip R a cuts) : M X (Option (Dict V P))) w = (.ok (some flips), w')) : flips.WF := by
  obtain ⟨d, w1, h1, g1⟩ := M.bind_eq_ok h
  cases g1
  unfold slowFlip at h1
  obtain ⟨e, w2, h2, g2⟩ := M.bind_eq_ok h1
  cases g2
  exact one_wf _ _

/-- `slow_reversible_propose` on objects makes the move of `slowMove` on plans. -/
theorem slow_same (N : ℕ) : SameMove limit D ups (fun _ => True) (fun _ _ => True) (slowReversiblePropose (uniRand N) limit : ℕ → M (World V P Tape) ℕ) (slowMove N D.graph) :=
  sameMove_of_flips (f := fun a => do return some (← slowFlip (uniRand N) a (cutsOf D.graph a.mapping))) (fun x => (some_bind x).symm)
    (fun s st a hs ha hd => proposeWith_cuts hs ha hd) (fun a w flips w' h => slowFlip_wf h) (fun _ _ _ _ _ _ _ _ _ => trivial) (fun _ _ _ _ _ _ _ _ _ _ _ => trivial)

theorem slowFlipBi_wf {R : Rand X} {a : Assignment V P} {cuts : Finset (V × V)} {w w' : X} {flips : Dict V P}
    (h : (do return some (← slowFlipBi R D.graph a cuts) : M X (Option (Dict V P))) w = (.ok (some flips), w')) : flips.WF := by
  obtain ⟨d, w1, h1, g1⟩ := M.bind_eq_ok h
  cases g1
  unfold slowFlipBi at h1
  obtain ⟨e, w2, h2, g2⟩ := M.bind_eq_ok h1
  obtain ⟨o, w3, h3, g3⟩ := M.bind_eq_ok g2
  split at g3
  · obtain ⟨p, w4, h4, g4⟩ := M.bind_eq_ok g3
    cases g4
    exact one_wf _ _
  · cases g3

/-- `slow_reversible_propose_bi` on objects makes the move of `biMove` on plans. -/
theorem bi_same (N : ℕ) : SameMove limit D ups (fun _ => True) (fun _ _ => True) (slowReversibleProposeBi (uniRand N) limit : ℕ → M (World V P Tape) ℕ) (biMove N D.graph) :=
  sameMove_of_flips (f := fun a => do return some (← slowFlipBi (uniRand N) D.graph a (cutsOf D.graph a.mapping))) (fun x => (some_bind x).symm)
    (fun s st a hs ha hd => proposeWith_cuts hs ha hd) (fun a w flips w' h => slowFlipBi_wf h) (fun _ _ _ _ _ _ _ _ _ => trivial) (fun _ _ _ _ _ _ _ _ _ _ _ => trivial)

theorem randomFlip_wf {R : Rand X} {a : Assignment V P} {cuts : Finset (V × V)} {w w' : X} {flips : Dict V P}
    (h : randomFlip R a cuts w = (.ok (some flips), w')) : flips.WF := by
  unfold randomFlip at h
  by_cases hc : cuts = ∅
  · rw [if_pos hc] at h; cases h
  rw [if_neg hc] at h
  obtain ⟨e, w1, h1, g1⟩ := M.bind_eq_ok h
  obtain ⟨x, w2, h2, g2⟩ := M.bind_eq_ok g1
  obtain ⟨p, w3, h3, g3⟩ := M.bind_eq_ok g2
  cases g3
  exact one_wf _ _

/-- `propose_random_flip` on objects makes the move of `randomMove` on plans. -/
theorem random_same (N : ℕ) : SameMove limit D ups (fun _ => True) (fun _ _ => True) (proposeRandomFlip (uniRand N) limit : ℕ → M (World V P Tape) ℕ) (randomMove N D.graph) := by
  refine sameMove_of_flips (f := fun a => randomFlip (uniRand N) a (cutsOf D.graph a.mapping)) (fun x => ?_)
    (fun s st a hs ha hd => proposeWith_cuts hs ha hd) (fun a w flips w' h => randomFlip_wf h) (fun _ _ _ _ _ _ _ _ _ => trivial) (fun _ _ _ _ _ _ _ _ _ _ _ => trivial)
  unfold randomMove
  congr 1

theorem recomLoop_wf {R : Rand X} (hR : R.Valid) {method : Method V X} {a : Assignment V P} {cuts : Finset (V × V)} {pop : V → ℚ} {target eps : ℚ} {fuel : ℕ}
    {bad : Finset (P × P)} {w w' : X} {f : Dict V P} (h : recomLoop R method D.graph a cuts pop target eps fuel bad w = (.ok f, w')) : f.WF := by
  obtain ⟨e, -, pq, w1, -, k2⟩ := recomLoop_ok hR h
  unfold recomPair at k2
  obtain ⟨u, w2, -, k3⟩ := M.bind_eq_ok k2
  exact epsilon_wf k3

theorem onRest_some (m : M X (Dict V P)) (st : ℕ) (s : World V P X) :
    (do let flips ← M.onRest m; flipObj st flips : M (World V P X) ℕ) s = (M.onRest (do return some (← m)) >>= finishObj st) s := by
  rcases hm : m s.2 with ⟨e | f, w⟩
  · have h1 : M.onRest (V := V) (P := P) m s = (.error e, (s.1, w)) := by unfold M.onRest; rw [hm]
    have h2 : M.onRest (V := V) (P := P) (do return some (← m) : M X (Option (Dict V P))) s = (.error e, (s.1, w)) := by
      unfold M.onRest
      rw [M.bind_error hm]
    rw [M.bind_error h2]
    exact M.bind_error h1
  · have h1 : M.onRest (V := V) (P := P) m s = (.ok f, (s.1, w)) := by unfold M.onRest; rw [hm]
    have h2 : M.onRest (V := V) (P := P) (do return some (← m) : M X (Option (Dict V P))) s = (.ok (some f), (s.1, w)) := by
      unfold M.onRest
      rw [M.bind_ok hm]
      rfl
    rw [M.bind_ok h2]
    exact M.bind_ok h1

theorem recom_prop {R : Rand X} {method : Method V X} {pop : V → ℚ} {target eps : ℚ} {fuel : ℕ} (hf : 0 < fuel) {s : World V P X} {st : ℕ} {a : Assignment V P}
    (hs : Stage D ups s) (ha : s.plan st = some a) (hd : ancestor (World.parent s) limit st = none) :
    ∃ ops : List (Op V P), (∀ op ∈ ops, op.IsLookup) ∧ recom R method pop target eps fuel limit st s =
      (M.onRest (do return some (← recomLoop R method D.graph a (cutsOf D.graph a.mapping) pop target eps fuel ∅)) >>= finishObj st) (s.1.run ops, s.2) := by
  obtain ⟨v, hv, rfl⟩ := World.plan_eq_some.1 ha
  unfold recom
  rw [M.bind_ok (show viewObj st s = (.ok v, s) by unfold viewObj; rw [hv]),
    M.bind_ok (show (M.read : M (World V P X) (World V P X)) s = (.ok s, s) from rfl)]
  by_cases h0 : totPairs v.assignment.parts.keys.length = 0
  · rw [if_pos h0]
    refine ⟨[], by simp, ?_⟩
    obtain ⟨n, rfl⟩ : ∃ n, fuel = n + 1 := ⟨fuel - 1, by omega⟩
    have : recomLoop R method D.graph v.assignment (cutsOf D.graph v.assignment.mapping) pop target eps (n + 1) ∅ = M.raise .metagraphError := by
      unfold recomLoop
      rw [if_neg (by rw [h0]; simp)]
    rw [this]
    rfl
  rw [if_neg h0]
  refine ⟨[.lookup st .cutEdges limit], by simp [Op.IsLookup], ?_⟩
  rw [M.bind_ok (lookup_cuts hs ha hd), hs.graph]
  rw [M.bind_ok (show M.lift (Val.asEdgeSet (.edgeSet (cutsOf D.graph v.assignment.mapping))) (s.1.step (.lookup st .cutEdges limit), s.2) =
    (.ok (cutsOf D.graph v.assignment.mapping), (s.1.step (.lookup st .cutEdges limit), s.2)) from rfl)]
  exact onRest_some _ st _

/-! ### The acceptance functions and constraints -/

theorem always_same : SameAnswer limit D ups C (alwaysAcceptObj : ℕ → M (World V P Tape) Bool) alwaysAccept := by
  intro s q y _ _ _
  exact ⟨rfl, rfl, [], by simp, rfl⟩

theorem cutAccept_same (N : ℕ) : SameAnswer limit D ups C (cutAcceptObj (uniRand N) limit : ℕ → M (World V P Tape) Bool) (cutAccept N D.graph) := by
  intro s q y hs hm _
  obtain ⟨v, hv, hva⟩ := World.plan_eq_some.1 hm.plan
  have hpv := parent_of_view hv
  unfold cutAcceptObj
  rw [M.bind_ok (show viewObj q s = (.ok v, s) by unfold viewObj; rw [hv])]
  have hpp := hm.parent
  unfold World.parentPlan at hpp
  rw [hpv] at hpp
  rcases hp : v.parent with _ | p
  · rw [hp] at hpp
    refine ⟨?_, ?_, [], by simp, rfl⟩
    · unfold cutAccept
      rw [← hpp]
      rfl
    · unfold cutAccept
      rw [← hpp]
      rfl
  · rw [hp] at hpp
    obtain ⟨w, hw⟩ := hs.inv.frame.link q v p hv hp
    have hpw : s.plan p = some w.assignment := World.plan_eq_some.2 ⟨w, hw.view, rfl⟩
    have hyp : y.parent = some w.assignment := by rw [← hpp]; exact hpw
    have hdp : ancestor (World.parent s) limit p = none := by
      have hd := hm.depth
      rcases limit with _ | l
      · simp [ancestor] at hd
      · unfold ancestor at hd
        rw [hpv, hp] at hd
        exact ancestor_mono (Nat.le_succ l) hd
    have hr1 : Reaches s ((s.1.step (.lookup p .cutEdges limit), s.2) : World V P Tape) := ⟨[.lookup p .cutEdges limit], by intro op hop; simp only [List.mem_singleton] at hop; subst hop; trivial, rfl⟩
    have hm1 : Matches limit ((s.1.step (.lookup p .cutEdges limit), s.2) : World V P Tape) q y := hm.frame rfl
    unfold acceptBoundObj
    have hb : (do
        let x ← lookupKey .cutEdges limit p
        let a ← M.lift x.asEdgeSet
        let y ← lookupKey .cutEdges limit q
        let b ← M.lift y.asEdgeSet
        if b.card = 0 then M.raise .zeroDivision else pure (min 1 ((a.card : ℚ) / b.card)) : M (World V P Tape) ℚ) s =
        ((if (cutsOf D.graph y.plan.mapping).card = 0 then M.raise .zeroDivision else
          pure (min 1 (((cutsOf D.graph w.assignment.mapping).card : ℚ) / (cutsOf D.graph y.plan.mapping).card)) : M (World V P Tape) ℚ)
          ((s.1.step (.lookup p .cutEdges limit)).step (.lookup q .cutEdges limit), s.2)) := by
      rw [M.bind_ok (lookup_cuts hs hpw hdp)]
      refine (M.bind_ok rfl).trans ?_
      rw [M.bind_ok (lookup_cuts (hs.reaches hr1) hm1.plan hm1.depth)]
      exact M.bind_ok rfl
    have hval : cutAccept N D.graph y = (do
        let bound ← M.lift (if (cutsOf D.graph y.plan.mapping).card = 0 then .error .zeroDivision
          else .ok (min 1 (((cutsOf D.graph w.assignment.mapping).card : ℚ) / (cutsOf D.graph y.plan.mapping).card)))
        let u ← (uniRand N).random
        pure (decide (u < bound))) := by
      unfold cutAccept
      rw [hyp]
    rw [hval]
    have hops : ∀ op ∈ [Op.lookup p .cutEdges limit, .lookup q .cutEdges limit], (op : Op V P).IsLookup := by
      intro op hop
      simp only [List.mem_cons, List.not_mem_nil, or_false] at hop
      rcases hop with rfl | rfl <;> trivial
    by_cases hz : (cutsOf D.graph y.plan.mapping).card = 0
    · rw [if_pos hz] at hb ⊢
      have e1 : M.bind _ (fun bound => do
          let u ← M.onRest (uniRand N).random
          pure (decide (u < bound))) s = _ := M.bind_error hb
      refine ⟨?_, ?_, [.lookup p .cutEdges limit, .lookup q .cutEdges limit], hops, ?_⟩
      · exact congrArg Prod.fst e1
      · exact congrArg (fun r => r.2.2) e1
      · exact congrArg (fun r => r.2.1) e1
    · rw [if_neg hz] at hb ⊢
      have e1 : M.bind _ (fun bound => do
          let u ← M.onRest (uniRand N).random
          pure (decide (u < bound))) s = _ := M.bind_ok hb
      have e2 := fun (b : ℚ) (s : World V P Tape) => show (do
          let u ← M.onRest (uniRand N).random
          pure (decide (u < b)) : M (World V P Tape) Bool) s =
          ((((do
          let u ← (uniRand N).random
          pure (decide (u < b))) : M Tape Bool) s.2).1, (s.1, (((do
          let u ← (uniRand N).random
          pure (decide (u < b))) : M Tape Bool) s.2).2)) by
        show M.bind _ _ _ = _
        unfold M.bind M.onRest
        show _ = ((M.bind (uniRand N).random (fun u => pure (decide (u < b))) s.2).1, (s.1, (M.bind (uniRand N).random (fun u => pure (decide (u < b))) s.2).2))
        unfold M.bind
        rcases (uniRand N).random s.2 with ⟨e | u, t⟩ <;> rfl
      rw [e2] at e1
      refine ⟨?_, ?_, [.lookup p .cutEdges limit, .lookup q .cutEdges limit], hops, ?_⟩
      · exact congrArg Prod.fst e1
      · exact congrArg (fun r => r.2.2) e1
      · exact congrArg (fun r => r.2.1) e1

theorem planCheck_same (f : Assignment V P → Py CVal) (name : Option String) :
    SameCheck (X := X) limit D ups C (planCheckObj f name) (planCheck f name) := by
  refine ⟨rfl, fun s q y hs hm _ => ?_⟩
  obtain ⟨v, hv, hva⟩ := World.plan_eq_some.1 hm.plan
  have : (planCheckObj f name).call q s = (f y.plan, s) := by
    show M.bind _ _ _ = _
    rw [← hva]
    exact M.bind_ok (show viewObj q s = (.ok v, s) by unfold viewObj; rw [hv])
  rw [this]
  exact ⟨rfl, rfl, [], by simp, rfl⟩

theorem cutCheck_same (f : ℕ → Py CVal) (name : Option String) : SameCheck (X := X) limit D ups C (cutCheckObj limit f name) (cutCheck D.graph f name) := by
  refine ⟨rfl, fun s q y hs hm _ => ?_⟩
  have : (cutCheckObj limit f name).call q s = (f (cutsOf D.graph y.plan.mapping).card, (s.1.step (.lookup q .cutEdges limit), s.2)) := by
    show M.bind _ _ _ = _
    exact (M.bind_ok (lookup_cuts hs hm.plan hm.depth)).trans (M.bind_ok rfl)
  rw [this]
  exact ⟨rfl, rfl, [.lookup q .cutEdges limit], by simp [Op.IsLookup], rfl⟩

/-- the plan and the parent's plan are contiguous -/
def Sound (G : Graph V) (_ : Option (Dict V P)) (y : PlanState V P) : Prop := ContiguousPlan G y.plan ∧ ∀ a, y.parent = some a → ContiguousPlan G a

theorem ContiguousPlan.nonempty {G : Graph V} {a : Assignment V P} (h : ContiguousPlan G a) {part : P} {s : Finset V} (hs : a.parts.get? part = some s) :
    s.Nonempty := (h part s hs).1

/-- `contiguous` returns `True` on an object with a contiguous plan, whatever its flips and its parent. -/
theorem contiguous_of_plan {F : Frame V P} (hF : FrameInv F) (ord : SetOrder P) {p : ℕ} {v : View V P} (hv : F.view p = some v)
    (hc : ContiguousPlan F.data.graph v.assignment) : contiguous ord F p = .ok true := by
  have hall : ∀ l : List P, (∀ x ∈ l, x ∈ v.assignment.parts.keys) → pyAll (fun part => do
      let g ← subgraphOf F.data.graph v.assignment part
      nxIsConnected g) l = .ok true := by
    intro l hl
    rw [pyAll_true]
    intro x hx
    obtain ⟨s, hs⟩ := Dict.mem_keys_iff.1 (hl x hx)
    exact (check_part hF hv hs).1.2 (hc x s hs)
  have key : ∃ l, affectedParts ord F v = .ok l ∧ ∀ x ∈ l, x ∈ v.assignment.parts.keys := by
    rcases hfl : v.flips with _ | flips
    · exact ⟨_, by unfold affectedParts; rw [hfl], fun x hx => hx⟩
    rcases hp : v.parent with _ | q
    · refine ⟨ord.list flips.values.toFinset, by unfold affectedParts; rw [hfl, hp], fun x hx => ?_⟩
      rw [ord.mem, List.mem_toFinset, Dict.mem_values_iff (hF.flips p v flips hv hfl).1] at hx
      obtain ⟨n, hn⟩ := hx
      exact (hF.coherent p v hv).complete n x ((hF.flips p v flips hv hfl).2 n x hn)
    · obtain ⟨w, hl⟩ := hF.link p v q hv hp
      obtain ⟨flips', l, -, hs, haf, hm⟩ := affectedParts_child hF ord hv hp hl.view
      refine ⟨l, haf, fun x hx => ?_⟩
      rw [hm] at hx
      obtain ⟨n, r, hn, h⟩ := hx
      rcases h with rfl | h
      · refine (hF.coherent p v hv).complete n x ?_
        rw [hs.get?, hn]; rfl
      · rw [hs.keys]
        exact (hF.coherent q w hl.view).complete n x h
  obtain ⟨l, h1, h2⟩ := key
  unfold contiguous
  rw [hv]
  simp only [bind, Except.bind]
  rw [h1]
  exact hall l h2

theorem contigCheck_same (ord : SetOrder P) : SameCheck (X := X) limit D ups (Sound D.graph) (contigCheckObj ord) (contigCheck D.graph) := by
  refine ⟨rfl, fun s q y hs hm hC => ?_⟩
  obtain ⟨v, hv, hva⟩ := World.plan_eq_some.1 hm.plan
  have h1 : contiguous ord s.1.frame q = .ok true := contiguous_of_plan hs.inv.frame ord hv (by rw [hs.graph, hva]; exact hC.1)
  have : (contigCheckObj ord).call q s = (.ok (.bool true), s) := by
    show ((contiguous ord s.1.frame q).map CVal.bool, s) = _
    rw [h1]
    rfl
  rw [this]
  refine ⟨?_, rfl, [], by simp, rfl⟩
  classical
  show Except.ok (CVal.bool true) = (if NonemptyPlan y.plan then Except.ok (CVal.bool (decide (ContiguousPlan D.graph y.plan))) else .error PyErr.pointlessConcept)
  rw [if_pos (show NonemptyPlan y.plan from fun _ _ h => hC.1.nonempty h), decide_eq_true hC.1]

theorem boundsCall_congr {lo hi : ℚ} {l l' : List ℚ} (h : ∀ x, x ∈ l ↔ x ∈ l') : boundsCall lo hi (.container l) = boundsCall lo hi (.container l') := by
  rcases l with _ | ⟨x, l⟩
  · rcases l' with _ | ⟨y, l'⟩
    · rfl
    · exact absurd ((h y).2 List.mem_cons_self) (by simp)
  rcases l' with _ | ⟨y, l'⟩
  · exact absurd ((h x).1 List.mem_cons_self) (by simp)
  have e : l.foldl min x = l'.foldl min y := by
    refine eq_of_forall_le_iff (fun b => ?_)
    rw [foldl_min_le, foldl_min_le, ← List.forall_mem_cons (p := fun z => b ≤ z), ← List.forall_mem_cons (p := fun z => b ≤ z)]
    simp only [h]
  have e' : l.foldl max x = l'.foldl max y := by
    refine eq_of_forall_ge_iff (fun b => ?_)
    rw [foldl_max_le, foldl_max_le, ← List.forall_mem_cons (p := fun z => z ≤ b), ← List.forall_mem_cons (p := fun z => z ≤ b)]
    simp only [h]
  unfold boundsCall
  simp only [Iterable.first, Iterable.second, pyMin, pyMax]
  rw [e, e']

theorem tallyCheck_same (h2 : 2 ≤ limit) {fields : List String} (hk : Key.tally fields ∈ ups) (hcol : ∀ n, tallyFromNode D fields n ≠ ⊥) (lo hi : ℚ)
    (name : Option String) : SameCheck (X := X) (P := P) 2 D ups (Sound D.graph) (tallyCheckObj limit fields lo hi name) (tallyCheck D fields lo hi name) := by
  refine ⟨rfl, fun s q y hs hm hC => ?_⟩
  obtain ⟨v, hv, hva⟩ := World.plan_eq_some.1 hm.plan
  set val := tallyFromNode D fields with hval
  have hq : ∀ n, val n = (((val n).unbotD 0 : ℚ) : Num) := fun n => (Num.coe_unbotD (hcol n)).symm
  have hpar : ∀ i, s.1.frame.Ancestor q i → World.parent s q = some i := by
    have hd := shallow_of_ancestor hm.depth
    intro i hi
    cases hi with
    | parent h => exact h
    | step h hr =>
      cases hr with
      | parent h' => exact ((hd _ h) _ h').elim
      | step h' _ => exact ((hd _ h) _ h').elim
  have hsafe : TallySafe s.1.frame (tallyFromNode s.1.frame.data fields) q := by
    rw [hs.data]
    refine tallySafe_of hq (fun i w part t hi hw hpt => ?_)
    have hp := hpar i hi
    have hpp := hm.parent
    unfold World.parentPlan at hpp
    rw [hp] at hpp
    have hwp : World.plan s i = some w.assignment := World.plan_eq_some.2 ⟨w, hw, rfl⟩
    exact (hC.2 w.assignment (by rw [← hpp]; exact hwp)).nonempty hpt
  obtain ⟨x, hx, hlk⟩ := lookup_safe hs (limit := limit) hv (k := .tally fields)
    ⟨Frame.lt_of_view hv, by rw [hs.updaters]; exact hk, ⟨2, shallow_of_ancestor hm.depth, h2⟩, hsafe⟩
  obtain ⟨d, rfl, ht⟩ := hx.tally
  obtain ⟨t1, t2⟩ := tally_exact hq ht
  rw [hva] at t1 t2
  have hb : boundsCall lo hi (.container (tallyValues d)) = boundsCall lo hi (.container (planTallies D fields y.plan)) := by
    refine boundsCall_congr (fun z => ?_)
    unfold tallyValues planTallies
    simp only [List.mem_map]
    constructor
    · rintro ⟨part, hpart, rfl⟩
      obtain ⟨z, hz⟩ := Dict.mem_keys_iff.1 hpart
      obtain ⟨t, ht1, ht2⟩ := t1 part z hz
      refine ⟨(part, t), Dict.mem_entries_of_get? ht1, ?_⟩
      rw [hz, ht2]
      rfl
    · rintro ⟨⟨part, t⟩, he, rfl⟩
      have hg := Dict.get?_of_mem_entries (hs.coherent hm.plan).parts_wf he
      have hz := t2 part t hg (hC.1.nonempty hg)
      refine ⟨part, Dict.mem_keys_iff.2 ⟨_, hz⟩, ?_⟩
      rw [hz]
      rfl
  have : (tallyCheckObj limit fields lo hi name).call q s =
      ((boundsCall lo hi (.container (planTallies D fields y.plan))).map CVal.bool, (s.1.step (.lookup q (.tally fields) limit), s.2)) := by
    rw [← hb]
    show M.bind _ _ _ = _
    exact (M.bind_ok hlk).trans (M.bind_ok rfl)
  rw [this]
  exact ⟨rfl, rfl, [.lookup q (.tally fields) limit], by simp [Op.IsLookup], rfl⟩

/-- `recom` on objects makes the move of `recomProposal` on plans, from contiguous plans to contiguous plans. -/
theorem recom_sound {N r m fuel : ℕ} (hN : 0 < N) (hf : 0 < fuel) {span : Graph V → M Tape (WTree V)} (hspan : SpanOk span) {pop : V → ℚ} {target eps : ℚ} :
    SameMove limit D ups (ContiguousPlan D.graph) (Sound D.graph)
      (recom (uniRand N) (spanMethod N r m span pop) pop target eps fuel limit : ℕ → M (World V P Tape) ℕ) (recomProposal N r m span fuel D.graph pop target eps) := by
  refine sameMove_of_flips (f := fun a => do return some (← recomLoop (uniRand N) (spanMethod N r m span pop) D.graph a (cutsOf D.graph a.mapping) pop target eps fuel ∅))
    (fun x => (some_bind x).symm) (fun s st a hs ha hd => recom_prop hf hs ha hd)
    (fun a w flips w' h => ?_) (fun a w w' hG ha hcov hI h => ?_) (fun a w w' flips b hG ha hcov hI h hb => ?_)
  · obtain ⟨d, w1, h1, g1⟩ := M.bind_eq_ok h
    cases g1
    exact recomLoop_wf (uniRand_valid hN) h1
  · obtain ⟨d, w1, h1, g1⟩ := M.bind_eq_ok h
    cases g1
  · obtain ⟨d, w1, h1, g1⟩ := M.bind_eq_ok h
    cases g1
    obtain ⟨p, q, hr⟩ := C38_loop (uniRand_valid hN) (goodMethod_bipartition (uniRand N) (uniRand_valid hN) span hspan r (some m) _ none false (m + 1) pop)
      hG ha hcov hI h1 hb
    exact ⟨hr.contiguous hI, fun a' ha' => by cases ha'; exact hI⟩

/-- `reversible_recom` on objects makes the move of `revProposal` on plans, from contiguous plans to contiguous plans. -/
theorem reversible_sound {N bound fuel : ℕ} (hN : 0 < N) {pop : V → ℚ} {target eps : ℚ} :
    SameMove limit D ups (ContiguousPlan D.graph) (Sound D.graph)
      (reversibleRecom (uniRand N) (uniformSpan N) (memoBalance (uniRand N) false) bound false fuel pop target eps : ℕ → M (World V P Tape) ℕ)
      (revProposal N bound fuel D.graph pop target eps) := by
  refine sameMove_of_flips (f := fun a => revMove N bound fuel D.graph a pop target eps) (fun x => ?_) (fun s st a hs ha hd => ?_)
    (fun a w flips w' h => revFlips_wf h) (fun a w w' hG ha hcov hI h _ => ⟨hI, fun a' ha' => by cases ha'⟩) (fun a w w' flips b hG ha hcov hI h hb => ?_)
  · unfold revProposal
    congr 1
  · obtain ⟨v, hv, rfl⟩ := World.plan_eq_some.1 ha
    refine ⟨[], by simp, ?_⟩
    unfold reversibleRecom
    rw [M.bind_ok (show viewObj st s = (.ok v, s) by unfold viewObj; rw [hv]),
      M.bind_ok (show (M.read : M (World V P Tape) (World V P Tape)) s = (.ok s, s) from rfl), hs.graph]
    show M.bind _ _ _ = M.bind _ _ _
    refine congrFun ?_ _
    congr 1
  · obtain ⟨-, b', hb', p, q, hr⟩ := C40_result (uniRand N) (uniRand_valid hN) (uniformSpan N) (spanOk_ideal N) (memoBalance (uniRand N))
      (balanceOk_memo (uniRand N) (uniRand_valid hN)) bound false fuel D.graph hG a ha hcov hI pop target eps w w' flips h
    rw [hb] at hb'
    cases hb'
    exact ⟨hr.contiguous hI, fun a' ha' => by cases ha'; exact hI⟩

/-! ### The chains -/

theorem SameAnswer.mono {α : Type} {m : ℕ → M (World V P X) α} {m' : PlanState V P → M X α} (h : SameAnswer limit D ups C m m') {d : ℕ} (hd : d ≤ limit) :
    SameAnswer d D ups C m m' := fun s q y hs hm hC => h s q y hs (hm.mono hd) hC

theorem SameMove.mono {prop : ℕ → M (World V P X) ℕ} {move : PlanState V P → M X (PlanState V P)} (h : SameMove limit D ups I C prop move) {d : ℕ} (hd : d ≤ limit) :
    SameMove d D ups I C prop move := fun s st x hs hp ha hI => h s st x hs hp (ancestor_mono hd ha) hI

theorem Rule.same_simple {r : Rule V P} (hr : r.Simple) : SameCheck (X := X) limit D ups C (r.obj limit) (r.val D) := by
  cases r with
  | plan f name => exact planCheck_same f name
  | cuts f name => exact cutCheck_same f name
  | contiguous ord => exact hr.elim
  | singleFlip fuel ord adj draw => exact hr.elim
  | tally fields lo hi name => exact hr.elim

theorem Rule.same {r : Rule V P} (h2 : 2 ≤ limit) (hr : r.Fits D ups) : SameCheck (X := X) 2 D ups (Sound D.graph) (r.obj limit) (r.val D) := by
  cases r with
  | plan f name => exact planCheck_same f name
  | cuts f name => exact ⟨rfl, (cutCheck_same (limit := limit) f name).2.mono h2⟩
  | contiguous ord => exact contigCheck_same ord
  | singleFlip fuel ord adj draw => exact hr.elim
  | tally fields lo hi name => exact tallyCheck_same h2 hr.1 hr.2 lo hi name

theorem flip_kind_same (N : ℕ) (w : FlipKind) : SameMove limit D ups (fun _ => True) (fun _ _ => True) (w.obj (uniRand N) limit : ℕ → M (World V P Tape) ℕ) (w.val N D.graph) := by
  cases w with
  | random => exact random_same N
  | slow => exact slow_same N
  | slowBi => exact bi_same N

theorem accept_kind_same (N : ℕ) (w : AcceptKind) : SameAnswer limit D ups C (w.obj (uniRand N) limit : ℕ → M (World V P Tape) Bool) (w.val N D.graph) := by
  cases w with
  | always => exact always_same
  | cutEdge => exact cutAccept_same N

theorem forall₂_rules {rules : List (Rule V P)} {d : ℕ} (h : ∀ r ∈ rules, SameCheck (X := X) d D ups C (r.obj limit) (r.val D)) :
    List.Forall₂ (SameCheck (X := X) d D ups C) (rules.map (Rule.obj limit)) (rules.map (Rule.val D)) := by
  rw [List.forall₂_map_left_iff, List.forall₂_map_right_iff, List.forall₂_same]
  exact h

theorem flip_sameChain (h2 : 2 ≤ limit) (N : ℕ) (w : FlipKind) (acc : AcceptKind) {rules : List (Rule V P)} (hr : ∀ r ∈ rules, r.Simple) (st : ℕ) (x : PlanState V P) (n : ℤ) :
    SameChain limit D ups (fun _ => True) (fun _ _ => True) (objChain (w.obj (uniRand N) limit) (acc.obj (uniRand N) limit) st n) (rules.map (Rule.obj limit))
      (flipChain (w.val N D.graph) (acc.val N D.graph) x n) (rules.map (Rule.val D)) where
  two := h2
  erase := rfl
  erase' := fun _ _ => rfl
  steps := rfl
  proposal := flip_kind_same N w
  constraint := .of_forall (forall₂_rules (fun r hr' => Rule.same_simple (hr r hr')))
  accept := accept_kind_same N acc
  keeps := fun _ _ _ _ _ _ _ _ => trivial

theorem sound_sameChain (h2 : 2 ≤ limit) {N : ℕ} {prop : ℕ → M (World V P Tape) ℕ} {move : PlanState V P → M Tape (PlanState V P)}
    (h : SameMove limit D ups (ContiguousPlan D.graph) (Sound D.graph) prop move) (acc : AcceptKind) {rules : List (Rule V P)} (hr : ∀ r ∈ rules, r.Fits D ups)
    (st : ℕ) (x : PlanState V P) (n : ℤ) :
    SameChain 2 D ups (ContiguousPlan D.graph) (Sound D.graph) (objChain prop (acc.obj (uniRand N) limit) st n) (rules.map (Rule.obj limit))
      (flipChain move (acc.val N D.graph) x n) (rules.map (Rule.val D)) where
  two := le_rfl
  erase := rfl
  erase' := fun _ _ => rfl
  steps := rfl
  proposal := h.mono h2
  constraint := .of_forall (forall₂_rules (fun r hr' => Rule.same h2 (hr r hr')))
  accept := (accept_kind_same N acc).mono h2
  keeps := fun _ _ _ _ h _ _ _ => h.1

/-- the whole of `list(MarkovChain(...))`, with the constructor -/
theorem run_same {c : ChainCfg (World V P X) ℕ} {cs : List (Constraint (World V P X) ℕ)} {c' : ChainCfg X (PlanState V P)} {cs' : List (Constraint X (PlanState V P))}
    (h : SameChain limit D ups I C c cs c' cs') {C0 : Option (Dict V P) → PlanState V P → Prop} (h0 : List.Forall₂ (SameCheck limit D ups C0) cs cs') {s : World V P X}
    (hs : Stage D ups s) (hm : Matches limit s c.initial c'.initial) (hC : C0 (s.flipsOf c.initial) c'.initial) (hI : I c'.initial.plan) (fuel body : ℕ) :
    runObj c cs fuel body s = runPlans c' cs' fuel body s.2 := by
  unfold runObj runPlans
  rcases init_same h0 hs hm hC with ⟨e, s1, h1, h2⟩ | ⟨s1, h1, h2, hr, hf, -⟩
  · rw [h1, h2]
  · rw [h1, h2]
    have hm1 := hm.frame hf
    exact (collect_same h fuel body s1 _ _ (hs.reaches hr) hm1.plan hm1.depth hI rfl rfl rfl).seen_eq

/-- `list(chain)` for a chain that has been built -/
theorem list_same {c : ChainCfg (World V P X) ℕ} {cs : List (Constraint (World V P X) ℕ)} {c' : ChainCfg X (PlanState V P)} {cs' : List (Constraint X (PlanState V P))}
    (h : SameChain limit D ups I C c cs c' cs') {s : World V P X} (hs : Stage D ups s) (hp : s.plan c.initial = some c'.initial.plan)
    (hd : ancestor (World.parent s) limit c.initial = none) (hI : I c'.initial.plan) {ch : Chain (World V P X) ℕ} {ch' : Chain X (PlanState V P)} (hv : ch.isValid = cs)
    (hv' : ch'.isValid = cs') (fuel body : ℕ) : seenObj (ch.list c fuel body s) = seen (ch'.list c' fuel body s.2) :=
  (collect_same h fuel body s (ch.iter c) (ch'.iter c') hs hp hd hI hv hv' rfl).seen_eq

end moves

/-! ### Means over runs of objects -/

/-- the value of a function of the plans that the caller of `list(chain)` sees; 0 if the list is not complete -/
def seenValue {α : Type} (φ : Assignment V P → α) (F : List α → ℚ) : Option (Py (List (Option (Assignment V P))) × X) → ℚ
  | some (.ok l, _) => F (l.filterMap (fun o => o.map φ))
  | _ => 0

theorem seenValue_seen {α : Type} (φ : Assignment V P → α) (F : List α → ℚ) (o : Option (Py (List (PlanState V P)) × Chain Tape (PlanState V P) × Tape)) :
    seenValue φ F (seen o) = listValue (fun x => φ x.plan) F o := by
  rcases o with _ | ⟨e | l, ch, t⟩
  · rfl
  · rfl
  · simp [seen, seenValue, listValue, List.filterMap_map, Function.comp_def]

/-! ### C106 -/

section theorems
variable {D : GraphData V} {ups : List Key} {ops : List (Op V P)} {limit st : ℕ} {a : Assignment V P}

/-- the objects before the chain is built: `D` and `ups` are given to `Partition(...)`, `ops` are the partitions that were made, flipped and looked at -/
abbrev startWorld (D : GraphData V) (ups : List Key) (ops : List (Op V P)) (t : X) : World V P X := (Heap.after D ups ops, t)

theorem start_stage (hD : D.graph.WF) (hops : ∀ op ∈ ops, op.WF) (hcut : Key.cutEdges ∈ ups) (t : X) : Stage D ups (startWorld D ups ops t) := by
  obtain ⟨h1, h2, h3⟩ := after_inv (ups := ups) hD hops
  exact ⟨h1, h2, h3, hcut⟩

/-- **C106** (single flips) For every history of partition objects, every proposal of single flips, every acceptance function, all constraints on the plan or on the number of cut
edges, every length and every tape: building the chain on an object and reading the whole chain shows the plans of the chain of plans, or the same exception, and leaves the
same random numbers.  The initial object needs fewer than `limit` generations of ancestors; the length of the chain does not matter. -/
theorem C106_flips (hD : D.graph.WF) (hops : ∀ op ∈ ops, op.WF) (hcut : Key.cutEdges ∈ ups) (h2 : 2 ≤ limit) (N : ℕ) (w : FlipKind) (acc : AcceptKind)
    (rules : List (Rule V P)) (hr : ∀ r ∈ rules, r.Simple) (t : Tape) (hp : (startWorld D ups ops t).plan st = some a)
    (hd : (Heap.after D ups ops).frame.Shallow limit st) (n : ℤ) (fuel body : ℕ) :
    runObj (objChain (w.obj (uniRand N) limit) (acc.obj (uniRand N) limit) st n) (rules.map (Rule.obj limit)) fuel body (startWorld D ups ops t) =
      runPlans (flipChain (w.val N D.graph) (acc.val N D.graph) ⟨a, (startWorld D ups ops t).parentPlan st⟩ n) (rules.map (Rule.val D)) fuel body t :=
  run_same (flip_sameChain h2 N w acc hr st ⟨a, (startWorld D ups ops t).parentPlan st⟩ n)
    (forall₂_rules (C := fun _ _ => True) (fun r hr' => Rule.same_simple (hr r hr'))) (start_stage hD hops hcut t) ⟨hp, rfl, ancestor_of_shallow hd⟩ trivial trivial fuel body

/-- **C106** (`recom`) The same for `recom` with any method that finds spanning trees, also with the constraints `contiguous` and bounds on populations, from an object with a contiguous
plan whose parent, if there is one, has a contiguous plan and no parent. -/
theorem C106_recom (hD : D.graph.WF) (hops : ∀ op ∈ ops, op.WF) (hcut : Key.cutEdges ∈ ups) (h2 : 2 ≤ limit) (N : ℕ) (hN : 0 < N) (r m rounds : ℕ) (hf : 0 < rounds)
    (span : Graph V → M Tape (WTree V)) (hspan : SpanOk span) (pop : V → ℚ) (target eps : ℚ) (acc : AcceptKind) (rules : List (Rule V P)) (hr : ∀ r ∈ rules, r.Fits D ups)
    (t : Tape) (hp : (startWorld D ups ops t).plan st = some a) (hc : ContiguousPlan D.graph a) (hd : (Heap.after D ups ops).frame.Shallow 2 st)
    (hpc : ∀ b, (startWorld D ups ops t).parentPlan st = some b → ContiguousPlan D.graph b) (n : ℤ) (fuel body : ℕ) :
    runObj (objChain (recom (uniRand N) (spanMethod N r m span pop) pop target eps rounds limit) (acc.obj (uniRand N) limit) st n) (rules.map (Rule.obj limit)) fuel body
        (startWorld D ups ops t) =
      runPlans (flipChain (recomProposal N r m span rounds D.graph pop target eps) (acc.val N D.graph) ⟨a, (startWorld D ups ops t).parentPlan st⟩ n) (rules.map (Rule.val D))
        fuel body t :=
  run_same (sound_sameChain h2 (N := N) (recom_sound hN hf hspan) acc hr st ⟨a, (startWorld D ups ops t).parentPlan st⟩ n)
    (forall₂_rules (fun r hr' => Rule.same h2 (hr r hr'))) (start_stage hD hops hcut t) ⟨hp, rfl, ancestor_of_shallow hd⟩ ⟨hc, hpc⟩ hc fuel body

/-- **C106** (`reversible_recom`) The same for `reversible_recom`. -/
theorem C106_reversible (hD : D.graph.WF) (hops : ∀ op ∈ ops, op.WF) (hcut : Key.cutEdges ∈ ups) (h2 : 2 ≤ limit) (N : ℕ) (hN : 0 < N) (bound rounds : ℕ)
    (pop : V → ℚ) (target eps : ℚ) (acc : AcceptKind) (rules : List (Rule V P)) (hr : ∀ r ∈ rules, r.Fits D ups)
    (t : Tape) (hp : (startWorld D ups ops t).plan st = some a) (hc : ContiguousPlan D.graph a) (hd : (Heap.after D ups ops).frame.Shallow 2 st)
    (hpc : ∀ b, (startWorld D ups ops t).parentPlan st = some b → ContiguousPlan D.graph b) (n : ℤ) (fuel body : ℕ) :
    runObj (objChain (reversibleRecom (uniRand N) (uniformSpan N) (memoBalance (uniRand N) false) bound false rounds pop target eps) (acc.obj (uniRand N) limit) st n)
        (rules.map (Rule.obj limit)) fuel body (startWorld D ups ops t) =
      runPlans (flipChain (revProposal N bound rounds D.graph pop target eps) (acc.val N D.graph) ⟨a, (startWorld D ups ops t).parentPlan st⟩ n) (rules.map (Rule.val D))
        fuel body t :=
  run_same (sound_sameChain h2 (N := N) (reversible_sound hN) acc hr st ⟨a, (startWorld D ups ops t).parentPlan st⟩ n)
    (forall₂_rules (fun r hr' => Rule.same h2 (hr r hr'))) (start_stage hD hops hcut t) ⟨hp, rfl, ancestor_of_shallow hd⟩ ⟨hc, hpc⟩ hc fuel body

/-- **C106** (means, single flips) Every mean over runs of objects is the mean over runs of plans. -/
theorem C106_flip_mean (hD : D.graph.WF) (hops : ∀ op ∈ ops, op.WF) (hcut : Key.cutEdges ∈ ups) (h2 : 2 ≤ limit) (N L : ℕ) (w : FlipKind) (acc : AcceptKind)
    (rules : List (Rule V P)) (hr : ∀ r ∈ rules, r.Simple) (hp : ((Heap.after D ups ops).frame.view st).map (·.assignment) = some a)
    (hd : (Heap.after D ups ops).frame.Shallow limit st) (n : ℤ) (fuel body : ℕ) (ch : Chain (World V P Tape) ℕ) (hch : ch.isValid = rules.map (Rule.obj limit))
    (ch' : Chain Tape (PlanState V P)) (hch' : ch'.isValid = rules.map (Rule.val D)) {α : Type} (φ : Assignment V P → α) (F : List α → ℚ) :
    avg N L (fun t => seenValue φ F (seenObj (ch.list (objChain (w.obj (uniRand N) limit) (acc.obj (uniRand N) limit) st n) fuel body (startWorld D ups ops t)))) =
      avg N L (fun t => listValue (fun x => φ x.plan) F (ch'.list (flipChain (w.val N D.graph) (acc.val N D.graph) ⟨a, none⟩ n) fuel body t)) :=
  avg_congr N L (fun t => by
    rw [list_same (flip_sameChain h2 N w acc hr st ⟨a, none⟩ n) (start_stage hD hops hcut t) hp (ancestor_of_shallow hd) trivial hch hch' fuel body, seenValue_seen])

/-- **C106** (means, `recom`) -/
theorem C106_recom_mean (hD : D.graph.WF) (hops : ∀ op ∈ ops, op.WF) (hcut : Key.cutEdges ∈ ups) (h2 : 2 ≤ limit) (N L : ℕ) (hN : 0 < N) (r m rounds : ℕ) (hf : 0 < rounds)
    (span : Graph V → M Tape (WTree V)) (hspan : SpanOk span) (pop : V → ℚ) (target eps : ℚ) (rules : List (Rule V P)) (hr : ∀ r ∈ rules, r.Fits D ups)
    (hp : ((Heap.after D ups ops).frame.view st).map (·.assignment) = some a) (hc : ContiguousPlan D.graph a) (hd : (Heap.after D ups ops).frame.Shallow 2 st)
    (n fuel body : ℕ) (ch : Chain (World V P Tape) ℕ) (hch : ch.isValid = rules.map (Rule.obj limit)) (ch' : Chain Tape (PlanState V P))
    (hch' : ch'.isValid = rules.map (Rule.val D)) (F : List (Finset (Finset V)) → ℚ) :
    avg N L (fun t => seenValue Assignment.plan F (seenObj (ch.list (objChain (recom (uniRand N) (spanMethod N r m span pop) pop target eps rounds limit) alwaysAcceptObj st
      ((n + 1 : ℕ) : ℤ)) fuel body (startWorld D ups ops t)))) = recomMean N L r m span rounds D.graph pop target eps a n ch' fuel body F :=
  avg_congr N L (fun t => (congrArg (seenValue Assignment.plan F) (list_same (sound_sameChain h2 (N := N) (recom_sound hN hf hspan) .always hr st ⟨a, none⟩ _)
    (start_stage hD hops hcut t) hp (ancestor_of_shallow hd) hc hch hch' fuel body)).trans (seenValue_seen _ _ _))

/-- **C106** (means, `reversible_recom`) -/
theorem C106_reversible_mean (hD : D.graph.WF) (hops : ∀ op ∈ ops, op.WF) (hcut : Key.cutEdges ∈ ups) (h2 : 2 ≤ limit) (N L : ℕ) (hN : 0 < N) (bound rounds : ℕ)
    (pop : V → ℚ) (target eps : ℚ) (rules : List (Rule V P)) (hr : ∀ r ∈ rules, r.Fits D ups)
    (hp : ((Heap.after D ups ops).frame.view st).map (·.assignment) = some a) (hc : ContiguousPlan D.graph a) (hd : (Heap.after D ups ops).frame.Shallow 2 st)
    (n fuel body : ℕ) (ch : Chain (World V P Tape) ℕ) (hch : ch.isValid = rules.map (Rule.obj limit)) (ch' : Chain Tape (PlanState V P))
    (hch' : ch'.isValid = rules.map (Rule.val D)) (F : List (Finset (Finset V)) → ℚ) :
    avg N L (fun t => seenValue Assignment.plan F (seenObj (ch.list (objChain (reversibleRecom (uniRand N) (uniformSpan N) (memoBalance (uniRand N) false) bound false rounds
      pop target eps) alwaysAcceptObj st ((n + 1 : ℕ) : ℤ)) fuel body (startWorld D ups ops t)))) =
      avg N L (fun t => listValue (fun x => x.plan.plan) F (ch'.list (revChain N bound rounds D.graph pop target eps a n) fuel body t)) :=
  avg_congr N L (fun t => (congrArg (seenValue Assignment.plan F) (list_same (sound_sameChain h2 (N := N) (reversible_sound hN) .always hr st ⟨a, none⟩ _)
    (start_stage hD hops hcut t) hp (ancestor_of_shallow hd) hc hch hch' fuel body)).trans (seenValue_seen _ _ _))

/-! ### The usual constraints -/

/-- the populations in the column `col` -/
def nodePop (D : GraphData V) (col : String) (v : V) : ℚ := (tallyFromNode D [col] v).unbotD 0

/-- `[contiguous, within_percent_of_ideal_population(initial_partition, percent)]` with the bounds `lo` and `hi` -/
def usualRules (ord : SetOrder P) (col : String) (lo hi : ℚ) (name : Option String) : List (Rule V P) := [.contiguous ord, .tally [col] lo hi name]

theorem usual_harmless {k : ℕ} (hk : 0 < k) {target eps lo hi : ℚ} (hlo : lo ≤ target * (1 - eps)) (hhi : target * (1 + eps) ≤ hi) (ord : SetOrder P) (col : String)
    (name : Option String) : Harmless (P := P) D.graph (nodePop D col) target eps k ((usualRules ord col lo hi name).map (Rule.val D)) := by
  intro x t hx
  obtain ⟨ha, hp⟩ := hx
  obtain ⟨hcov, hc⟩ := labelled ha hp
  have h1 : (contigCheck D.graph : Constraint Tape (PlanState V P)).call x t = (.ok (.bool true), t) := by
    classical
    show ((if NonemptyPlan x.plan then Except.ok (CVal.bool (decide (ContiguousPlan D.graph x.plan))) else .error PyErr.pointlessConcept), t) = _
    rw [if_pos (show NonemptyPlan x.plan from fun _ _ h => hc.nonempty h), decide_eq_true hc]
  have hb : boundsCall lo hi (.container (planTallies D [col] x.plan)) = .ok true := by
    refine (C20_bounds lo hi _).1.2 ⟨?_, ?_⟩
    · intro h
      have h0 : x.plan.parts.entries = [] := by
        unfold planTallies at h
        exact List.map_eq_nil_iff.1 h
      have hpl : x.plan.plan = ∅ := by
        unfold Assignment.plan Dict.values
        rw [h0]
        rfl
      have hcard := hp.2.1
      rw [hpl, Finset.card_empty] at hcard
      omega
    · intro z hz
      obtain ⟨⟨part, X⟩, he, rfl⟩ := List.mem_map.1 hz
      have hX : X ∈ x.plan.plan := by
        unfold Assignment.plan
        rw [List.mem_toFinset, Dict.mem_values_iff ha.parts_wf]
        exact ⟨part, Dict.get?_of_mem_entries ha.parts_wf he⟩
      have hn := (hp.2.2 X hX).2
      unfold Near popOf at hn
      rw [abs_le] at hn
      have hs : (∑ v ∈ X, nodePop D col v) = ∑ v ∈ X, (tallyFromNode D [col] v).unbotD 0 := rfl
      rw [hs] at hn
      simp only
      constructor <;> linarith [hn.1, hn.2]
  have h2 : (tallyCheck D [col] lo hi name : Constraint Tape (PlanState V P)).call x t = (.ok (.bool true), t) := by
    show ((boundsCall lo hi (.container (planTallies D [col] x.plan))).map CVal.bool, t) = _
    rw [hb]
    rfl
  show validator x [contigCheck D.graph, tallyCheck D [col] lo hi name] t = _
  unfold validator
  rw [h1]
  simp only
  unfold validator
  rw [h2]
  rfl

theorem usual_fits {col : String} (hk : Key.tally [col] ∈ ups) (hcol : ∀ v, tallyFromNode D [col] v ≠ ⊥) (ord : SetOrder P) (lo hi : ℚ) (name : Option String) :
    ∀ r ∈ (usualRules ord col lo hi name : List (Rule V P)), r.Fits D ups := by
  intro r hr
  simp only [usualRules, List.mem_cons, List.not_mem_nil, or_false] at hr
  rcases hr with rfl | rfl
  · trivial
  · exact ⟨hk, hcol⟩

/-- **C106** (ensembles of `reversible_recom`) `MarkovChain(reversible_recom, [contiguous, within_percent_of_ideal_population(...)], always_accept, initial, n + 1)` on partition
objects, with the populations looked up in the caches: for every score of a plan the probability that its average over the run differs by `ε` or more from its mean over the plans
within reach, weighted with their numbers of spanning forests, is at most `C / (n ε²)`.  `C` does not depend on the objects, the recursion limit, the history before the chain or the
generator. -/
theorem C106_reversible_ensemble (hD : D.graph.WF) (hcut : Key.cutEdges ∈ ups) {col : String} (hk : Key.tally [col] ∈ ups) (hcol : ∀ v, tallyFromNode D [col] v ≠ ⊥)
    {k bound : ℕ} {target eps lo hi : ℚ} (hs : RevSetting D.graph (nodePop D col) target eps k bound) (hlo : lo ≤ target * (1 - eps)) (hhi : target * (1 + eps) ≤ hi)
    (a : Assignment V P) (ha : a.Coherent) (hp : IsPlan D.graph (nodePop D col) target eps k a.plan) (score : Finset (Finset V) → ℚ) :
    ∃ C, ∀ (ops : List (Op V P)), (∀ op ∈ ops, op.WF) → ∀ (st : ℕ) (b : Assignment V P), ((Heap.after D ups ops).frame.view st).map (·.assignment) = some b →
      b.plan ∈ reachable D.graph (nodePop D col) target eps k a.plan → (Heap.after D ups ops).frame.Shallow 2 st → ∀ limit, 2 ≤ limit →
      ∀ (N : ℕ), FairTape D.graph bound N → ∀ rounds, 0 < rounds → ∀ (ord : SetOrder P) (name : Option String) (ch : Chain (World V P Tape) ℕ),
      ch.isValid = (usualRules ord col lo hi name).map (Rule.obj limit) → ∀ n f body L, 0 < f → n + 1 < body → n * (6 + 2 * D.graph.nodes.card) ≤ L → ∀ ε, 0 < ε →
        avg N L (fun t => seenValue Assignment.plan (fun l =>
            if ε ≤ |(l.map score).sum / l.length - (∑ Q ∈ reachable D.graph (nodePop D col) target eps k a.plan, treeWeight D.graph Q * score Q) /
              ∑ Q ∈ reachable D.graph (nodePop D col) target eps k a.plan, treeWeight D.graph Q| then 1 else 0)
          (seenObj (ch.list (objChain (reversibleRecom (uniRand N) (uniformSpan N) (memoBalance (uniRand N) false) bound false rounds (nodePop D col) target eps)
            alwaysAcceptObj st ((n + 1 : ℕ) : ℤ)) f body (startWorld D ups ops t)))) ≤ C / ((n + 1 : ℕ) * ε ^ 2) := by
  obtain ⟨C, hC⟩ := C103_ensemble D.graph (nodePop D col) target eps k bound hs a ha hp score
  refine ⟨C, ?_⟩
  intro ops hops st b hb hbp hd limit h2 N hN rounds hf ord name ch hch n f body L hf' hbody hL ε hε
  have hbc : b.Coherent := (start_stage hD hops hcut ([] : Tape)).coherent (st := st) hb
  obtain ⟨hbp', -⟩ := mem_reachable.1 hbp
  rw [C106_reversible_mean hD hops hcut h2 N L hN.1 bound rounds _ target eps _ (usual_fits hk hcol ord lo hi name) hb (labelled hbc hbp').2 hd n f body ch hch
    ⟨(usualRules ord col lo hi name).map (Rule.val D), none, ⟨b, none⟩⟩ rfl]
  exact hC N hN rounds hf _ (usual_harmless hs.kpos hlo hhi ord col name) b hbc hbp _ rfl n f body L hf' hbody hL ε hε

/-- **C106** (ensembles of `recom`) The same for `recom`: with enough steps, proposals and attempts the average of a score over a run of objects is as close as one likes to its mean
under the stationary law of C105. -/
theorem C106_recom_converges (hD : D.graph.WF) (hcut : Key.cutEdges ∈ ups) {col : String} (hk : Key.tally [col] ∈ ups) (hcol : ∀ v, tallyFromNode D [col] v ≠ ⊥)
    {k : ℕ} (hk0 : 0 < k) {target eps lo hi : ℚ} {μ : Finset V → Finset (V × V) → ℚ} {Q0 : Finset (Finset V)} (hs : RecomSetting D.graph (nodePop D col) target eps k)
    (hμ : TreeChances D.graph μ) (hQ0 : IsPlan D.graph (nodePop D col) target eps k Q0) (hlo : lo ≤ target * (1 - eps)) (hhi : target * (1 + eps) ≤ hi)
    (π : Finset (Finset V) → ℚ)
    (hπ : Invariant (recomClass D.graph (nodePop D col) target eps k (fun _ => true) Q0) (keptKernel D.graph (nodePop D col) target eps k μ (fun _ => true)) π)
    (score : Finset (Finset V) → ℚ) (ε δ : ℚ) (hε : 0 < ε) (hδ : 0 < δ) :
    ∃ n0, ∀ n, n0 ≤ n → ∃ f0, ∀ f, f0 ≤ f → ∀ r, 0 < r → ∃ m0, ∀ m, m0 ≤ m →
      ∀ (ops : List (Op V P)), (∀ op ∈ ops, op.WF) → ∀ (st : ℕ) (b : Assignment V P), ((Heap.after D ups ops).frame.view st).map (·.assignment) = some b →
      b.plan ∈ recomClass D.graph (nodePop D col) target eps k (fun _ => true) Q0 → (Heap.after D ups ops).frame.Shallow 2 st → ∀ limit, 2 ≤ limit →
      ∀ (N d0 rounds : ℕ) (span : Graph V → M Tape (WTree V)), EvenTape D.graph N → 0 < rounds → TreeLaw N d0 D.graph span μ → SpanOk span →
      ∀ (ord : SetOrder P) (name : Option String) (ch : Chain (World V P Tape) ℕ), ch.isValid = (usualRules ord col lo hi name).map (Rule.obj limit) →
      ∀ body L, n + 1 < body → n * (f * recomDraws d0 m D.graph) ≤ L →
        1 - δ ≤ avg N L (fun t => seenValue Assignment.plan (fun l => if |(l.map score).sum / l.length -
            ∑ Q ∈ recomClass D.graph (nodePop D col) target eps k (fun _ => true) Q0, π Q * score Q| < ε then 1 else 0)
          (seenObj (ch.list (objChain (recom (uniRand N) (spanMethod N r m span (nodePop D col)) (nodePop D col) target eps rounds limit) alwaysAcceptObj st
            ((n + 1 : ℕ) : ℤ)) f body (startWorld D ups ops t)))) := by
  obtain ⟨n0, hn0⟩ := C105_converges (P := P) hs hμ hQ0 (W := fun _ => true) rfl π hπ score ε δ hε hδ
  refine ⟨n0, fun n hn => ?_⟩
  obtain ⟨f0, hf0⟩ := hn0 n hn
  refine ⟨f0, fun f hf r hr => ?_⟩
  obtain ⟨m0, hm0⟩ := hf0 f hf r hr
  refine ⟨m0, fun m hm => ?_⟩
  intro ops hops st b hb hbp hd limit h2 N d0 rounds span hN hr0 hlaw hspan ord name ch hch body L hbody hL
  have hbc : b.Coherent := (start_stage hD hops hcut ([] : Tape)).coherent (st := st) hb
  have hbp' : IsPlan D.graph (nodePop D col) target eps k b.plan := (mem_recomClass.1 hbp).1
  rw [C106_recom_mean hD hops hcut h2 N L hN.1 r m rounds hr0 span hspan _ target eps _ (usual_fits hk hcol ord lo hi name) hb (labelled hbc hbp').2 hd n f body ch hch
    ⟨(usualRules ord col lo hi name).map (Rule.val D), none, ⟨b, none⟩⟩ rfl]
  exact hm0 m hm N d0 rounds span _ ⟨hN, hr, hr0, hlaw, fun x t hx => usual_harmless hk0 hlo hhi ord col name x t hx⟩ b hbc hbp _ rfl body L hbody hL

end theorems

/-! ### A concrete chain of objects -/

/-- the ring of four nodes with one person in each -/
def ringData : GraphData (Fin 4) where
  graph := ringGraph
  col _ _ := ((1 : ℚ) : Num)
  boundaryNode _ := false
  boundaryPerim _ := 0
  sharedPerim _ := 1
  region _ _ := "A"

/-- the updaters of the example -/
def ringUps : List Key := [.cutEdges, .tally ["pop"]]

/-- `{0, 1}` and `{2, 3}` are built and tallied; then nodes 1 and 3 are swapped, which gives `ringB` as the object 1 -/
def ringOps : List (Op (Fin 4) (Fin 2)) := [.create ⟨[(0, 0), (1, 0), (2, 1), (3, 1)]⟩, .lookup 0 (.tally ["pop"]) 9, .flip 0 ⟨[(1, 1), (3, 0)]⟩]

theorem ringOps_wf : ∀ op ∈ ringOps, op.WF := by
  intro op hop
  simp only [ringOps, List.mem_cons, List.not_mem_nil, or_false] at hop
  rcases hop with rfl | rfl | rfl <;> simp [Op.WF, Dict.WF, Dict.keys]

theorem view_entries {F : Frame V P} {p : ℕ} {a : Assignment V P} (h1 : (F.view p).map (·.assignment.parts.entries) = some a.parts.entries)
    (h2 : (F.view p).map (·.assignment.mapping.entries) = some a.mapping.entries) : (F.view p).map (·.assignment) = some a := by
  rcases hv : F.view p with _ | ⟨⟨⟨l⟩, ⟨l'⟩⟩, _, _, _⟩ <;> rw [hv] at h1 h2
  · cases h1
  · obtain ⟨⟨b⟩, ⟨b'⟩⟩ := a
    simp only [Option.map_some, Option.some.injEq] at h1 h2 ⊢
    rw [h1, h2]

theorem ringOps_view : ((Heap.after ringData ringUps ringOps).frame.view 1).map (·.assignment) = some ringB ∧
    ((Heap.after ringData ringUps ringOps).frame.view 0).map (·.assignment) = some ringA :=
  ⟨view_entries (by decide +kernel) (by decide +kernel), view_entries (by decide +kernel) (by decide +kernel)⟩

theorem ringOps_parent : (startWorld ringData ringUps ringOps ([] : Tape)).parentPlan 1 = some ringA := by
  have h : World.parent (startWorld ringData ringUps ringOps ([] : Tape)) 1 = some 0 := by decide +kernel
  unfold World.parentPlan
  rw [h]
  exact ringOps_view.2

/-- the districts of the ring in increasing order -/
def ringOrder : SetOrder (Fin 2) := ⟨fun s => s.sort (· ≤ ·), fun _ _ => Finset.mem_sort _, fun _ => Finset.sort_nodup _ _⟩

theorem ring_nodePop : nodePop ringData "pop" = fun _ => 1 := by
  funext v
  show (([((1 : ℚ) : Num)] : List Num).sum).unbotD 0 = 1
  simp

theorem ring_shallow : (Heap.after ringData ringUps ringOps).frame.Shallow 2 1 := shallow_after ring_positive.1 ringOps_wf (by decide)

/-- the hypotheses of `C106_flips`, `C106_recom` and `C106_reversible` -/
example : ringData.graph.WF ∧ (∀ op ∈ ringOps, op.WF) ∧ Key.cutEdges ∈ ringUps ∧ (startWorld ringData ringUps ringOps ([] : Tape)).plan 1 = some ringB ∧
    (startWorld ringData ringUps ringOps ([] : Tape)).parentPlan 1 = some ringA ∧ ContiguousPlan ringData.graph ringA ∧ ContiguousPlan ringData.graph ringB ∧
    (Heap.after ringData ringUps ringOps).frame.Shallow 2 1 ∧ SpanOk (uniformSpan (V := Fin 4) 24) ∧
    (∀ r ∈ (usualRules ringOrder "pop" 2 2 none : List (Rule (Fin 4) (Fin 2))), r.Fits ringData ringUps) :=
  ⟨ring_positive.1, ringOps_wf, by decide, ringOps_view.1, ringOps_parent, ring_contiguous.1, ring_contiguous.2, ring_shallow, spanOk_ideal 24,
    usual_fits (by decide) (fun _ => by show (([((1 : ℚ) : Num)] : List Num).sum) ≠ ⊥; simp) _ _ _ _⟩

/-- The chain of objects that starts with the object 1: after `n` moves the plan is `{0, 1}`, `{2, 3}` with probability `(1 - (11/12)ⁿ) / 2`. -/
example (n limit : ℕ) (h2 : 2 ≤ limit) (ch : Chain (World (Fin 4) (Fin 2) Tape) ℕ) (hch : ch.isValid = (usualRules ringOrder "pop" 2 2 none).map (Rule.obj limit)) :
    avg (Nat.factorial 44) (n * 14) (fun t => seenValue Assignment.plan (fun l => if l.getLast? = some ringA.plan then 1 else 0)
      (seenObj (ch.list (objChain (reversibleRecom (uniRand (Nat.factorial 44)) (uniformSpan (Nat.factorial 44)) (memoBalance (uniRand (Nat.factorial 44)) false) (3 : ℕ) false 1
        (nodePop ringData "pop") 2 0) alwaysAcceptObj 1 ((n + 1 : ℕ) : ℤ)) 1 (n + 2) (startWorld ringData ringUps ringOps t)))) = (1 - (11 / 12) ^ n) / 2 := by
  have hcol : ∀ v, tallyFromNode ringData ["pop"] v ≠ ⊥ := fun _ => by show (([((1 : ℚ) : Num)] : List Num).sum) ≠ ⊥; simp
  have hpA : IsPlan ringGraph (fun _ => 1) 2 0 2 ringA.plan := mem_plans.1 ((ring_plans _).2 (.inl rfl))
  have hpB : IsPlan ringGraph (fun _ => 1) 2 0 2 ringB.plan := mem_plans.1 ((ring_plans _).2 (.inr rfl))
  rw [C106_reversible_mean ring_positive.1 ringOps_wf (by decide) h2 _ _ (Nat.factorial_pos _) 3 1 _ 2 0 _ (usual_fits (by decide) hcol ringOrder 2 2 none) ringOps_view.1
    ring_contiguous.2 ring_shallow n 1 (n + 2) ch hch ⟨(usualRules ringOrder "pop" 2 2 none).map (Rule.val ringData), none, ⟨ringB, none⟩⟩ rfl]
  have hh := usual_harmless (D := ringData) (k := 2) (by decide) (target := 2) (eps := 0) (lo := 2) (hi := 2) (by norm_num) (by norm_num) ringOrder "pop" none
  rw [ring_nodePop] at hh ⊢
  have hpl : plans ringGraph (fun _ => 1) 2 0 2 = {ringA.plan, ringB.plan} := by
    ext Q
    rw [ring_plans, Finset.mem_insert, Finset.mem_singleton]
  obtain ⟨hA, hB, hr⟩ := ring_weights
  refine (C103_two_districts ringGraph (fun _ => 1) 2 0 3 ring_setting _ ring_fair 1 Nat.one_pos _ hh ringB ring_coherent.2 hpB _ rfl n
    1 (n + 2) (n * 14) Nat.one_pos (by omega) (by rw [show ringGraph.nodes.card = 4 by decide]) ringA.plan hpA).trans ?_
  rw [if_neg ring_positive.2.2.2.1.symm, hpl, Finset.sum_pair ring_positive.2.2.2.1, hA, hB, hr]
  norm_num
  ring

end GC

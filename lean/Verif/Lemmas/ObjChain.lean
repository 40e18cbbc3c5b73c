import Verif.Model.ObjChain
import Verif.Props.Flips

/-!
# Simulation of a chain of partition objects by a chain of plans

A look-up of `cut_edges` succeeds as soon as the remaining ancestors fit into the recursion limit, however many objects were made before; a chain whose
callables agree on objects and on values then makes the same moves.
-/

set_option linter.unusedSectionVars false
set_option autoImplicit false

namespace GC

variable {V P X : Type} [LinearOrder V] [LinearOrder P]

/-! ### Objects and plans -/

/-- a reachable world of partitions of the data `D` with the updaters `ups`, among them `cut_edges` -/
structure Stage (D : GraphData V) (ups : List Key) (s : World V P X) : Prop where
  inv : HeapInv s.1
  data : s.1.frame.data = D
  updaters : s.1.frame.updaters = ups
  cuts : Key.cutEdges ∈ ups

theorem Stage.graph {D : GraphData V} {ups : List Key} {s : World V P X} (h : Stage D ups s) : s.1.frame.data.graph = D.graph := by rw [h.data]

/-- the object `q` has the plan and the parent's plan of the value `y`, and fewer than `limit` generations of ancestors -/
structure Matches (limit : ℕ) (s : World V P X) (q : ℕ) (y : PlanState V P) : Prop where
  plan : s.plan q = some y.plan
  parent : s.parentPlan q = y.parent
  depth : ancestor (World.parent s) limit q = none

theorem Stage.reaches {D : GraphData V} {ups : List Key} {s s' : World V P X} (h : Stage D ups s) (hr : Reaches s s') : Stage D ups s' := by
  obtain ⟨h1, h2⟩ := hr.stable h.inv
  exact ⟨h1, by rw [h2.data, h.data], by rw [h2.updaters, h.updaters], h.cuts⟩

theorem World.plan_eq_some {s : World V P X} {r : ℕ} {a : Assignment V P} :
    s.plan r = some a ↔ ∃ v, s.1.frame.view r = some v ∧ v.assignment = a := by
  unfold World.plan
  rw [Option.map_eq_some_iff]

theorem Stage.coherent {D : GraphData V} {ups : List Key} {s : World V P X} (hs : Stage D ups s) {st : ℕ} {a : Assignment V P} (ha : s.plan st = some a) : a.Coherent := by
  obtain ⟨v, hv, rfl⟩ := World.plan_eq_some.1 ha
  exact hs.inv.frame.coherent _ _ hv

theorem Stage.covers {D : GraphData V} {ups : List Key} {s : World V P X} (hs : Stage D ups s) {st : ℕ} {a : Assignment V P} (ha : s.plan st = some a) : a.Covers D.graph.nodes := by
  obtain ⟨v, hv, rfl⟩ := World.plan_eq_some.1 ha
  rw [← hs.graph]
  exact hs.inv.frame.covers _ _ hv

theorem plan_reaches {s s' : World V P X} (hs : HeapInv s.1) (hr : Reaches s s') {r : ℕ} {a : Assignment V P} (h : s.plan r = some a) :
    s'.plan r = some a := by
  obtain ⟨v, hv, rfl⟩ := World.plan_eq_some.1 h
  obtain ⟨-, hst⟩ := hr.stable hs
  obtain ⟨v', h1, h2⟩ := hst.view r v hv
  exact World.plan_eq_some.2 ⟨v', h1, h2⟩

theorem parent_of_view {s : World V P X} {r : ℕ} {v : View V P} (hv : s.1.frame.view r = some v) : World.parent s r = v.parent := by
  obtain ⟨o, ho, -, -, h, -⟩ := Frame.view_eq_some hv
  unfold World.parent
  rw [ho, h]
  rfl

theorem Matches.frame {limit : ℕ} {s s' : World V P X} {q : ℕ} {y : PlanState V P} (h : Matches limit s q y) (hf : s'.1.frame = s.1.frame) :
    Matches limit s' q y := by
  have hp : World.plan s' = World.plan s := by funext r; unfold World.plan; rw [hf]
  have hq : World.parent s' = World.parent s := by funext r; unfold World.parent; rw [hf]
  refine ⟨by rw [hp]; exact h.plan, ?_, by rw [hq]; exact h.depth⟩
  unfold World.parentPlan
  rw [hp, hq]
  exact h.parent

theorem Matches.mono {n m : ℕ} {s : World V P X} {q : ℕ} {y : PlanState V P} (h : Matches n s q y) (hm : n ≤ m) : Matches m s q y :=
  ⟨h.plan, h.parent, ancestor_mono hm h.depth⟩

theorem parent_erase_self (s : World V P X) (r : ℕ) : World.parent (World.erase r s) r = none := by
  unfold World.parent World.erase Heap.step Frame.eraseParent
  simp only
  rcases ho : s.1.frame.objs[r]? with _ | o
  · simp [ho]
  · have := (List.getElem?_eq_some_iff.1 ho).1
    simp [this]

theorem parent_erase_ne (s : World V P X) {r r' : ℕ} (hne : r' ≠ r) : World.parent (World.erase r s) r' = World.parent s r' := by
  unfold World.parent World.erase Heap.step Frame.eraseParent
  simp only
  rcases ho : s.1.frame.objs[r]? with _ | o
  · rfl
  · simp [List.getElem?_set, hne.symm]

/-! ### Look-ups of updaters -/

theorem shallow_of_ancestor {s : World V P X} : ∀ {n r : ℕ}, ancestor (World.parent s) n r = none → s.1.frame.Shallow n r
  | 0, r, h => by simp [ancestor] at h
  | n + 1, r, h => by
    intro q hq
    unfold ancestor at h
    rw [show World.parent s r = some q from hq] at h
    exact shallow_of_ancestor h

theorem ancestor_of_shallow {s : World V P X} : ∀ {n r : ℕ}, s.1.frame.Shallow n r → ancestor (World.parent s) n r = none
  | 0, r, h => h.elim
  | n + 1, r, h => by
    unfold ancestor
    rcases hq : World.parent s r with _ | q
    · rfl
    · exact ancestor_of_shallow (h q hq)

/-- a look-up that is safe returns a right value and changes nothing but the cache -/
theorem lookup_safe {D : GraphData V} {ups : List Key} {s : World V P X} (hs : Stage D ups s) {limit st : ℕ} {v : View V P} (hv : s.1.frame.view st = some v)
    {k : Key} (hd : Safe s.1.frame limit k st) :
    ∃ x, Correct D (s.1.frame.moved st) v.assignment k x ∧ lookupKey k limit st s = (.ok x, (s.1.step (.lookup st k limit), s.2)) := by
  have hsat := getitem_sat hs.inv.frame limit k st s.1.caches hs.inv.caches
  rcases hg : getitem s.1.frame limit k st s.1.caches with ⟨e | x, c'⟩ <;> rw [hg] at hsat
  · exact absurd hd hsat.2
  · obtain ⟨-, v', hv', hc⟩ := hsat
    rw [hv] at hv'
    cases hv'
    rw [hs.data] at hc
    refine ⟨x, hc, ?_⟩
    unfold lookupKey
    rw [hg]

/-- With fewer than `limit` generations of ancestors a look-up of `cut_edges` does not raise, and returns the cut edges of the plan. -/
theorem lookup_cuts {D : GraphData V} {ups : List Key} {s : World V P X} (hs : Stage D ups s) {limit st : ℕ} {a : Assignment V P} (ha : s.plan st = some a)
    (hd : ancestor (World.parent s) limit st = none) :
    lookupKey .cutEdges limit st s = (.ok (.edgeSet (cutsOf D.graph a.mapping)), (s.1.step (.lookup st .cutEdges limit), s.2)) := by
  obtain ⟨v, hv, rfl⟩ := World.plan_eq_some.1 ha
  obtain ⟨x, hx, h⟩ := lookup_safe hs (limit := limit) hv (k := .cutEdges) ⟨Frame.lt_of_view hv, by rw [hs.updaters]; exact hs.cuts, ⟨limit, shallow_of_ancestor hd, le_rfl⟩, trivial⟩
  rw [h, hx.cutEdges]

/-! ### Callables that agree -/

/-- The callable `m` on objects and the callable `m'` on values answer the same and use the same randomness; `m` only looks updaters up. -/
def SameAnswer {α : Type} (limit : ℕ) (D : GraphData V) (ups : List Key) (C : Option (Dict V P) → PlanState V P → Prop) (m : ℕ → M (World V P X) α) (m' : PlanState V P → M X α) : Prop :=
  ∀ (s : World V P X) (q : ℕ) (y : PlanState V P), Stage D ups s → Matches limit s q y → C (s.flipsOf q) y →
    (m q s).1 = (m' y s.2).1 ∧ (m q s).2.2 = (m' y s.2).2 ∧ ∃ ops : List (Op V P), (∀ op ∈ ops, op.IsLookup) ∧ (m q s).2.1 = s.1.run ops

/-- a constraint on objects and its counterpart on values -/
def SameCheck (limit : ℕ) (D : GraphData V) (ups : List Key) (C : Option (Dict V P) → PlanState V P → Prop) (con : Constraint (World V P X) ℕ) (con' : Constraint X (PlanState V P)) : Prop :=
  con.name = con'.name ∧ SameAnswer limit D ups C con.call con'.call

/-- the constraint is passed (constraints/validity.py:40-58) -/
def CVal.Passed : CVal → Prop
  | .bool b | .numpyBool b => b = true
  | .other _ => False

/-- The constraints agree in order: what the earlier ones guarantee may be used for the later ones. -/
inductive SameChecks (limit : ℕ) (D : GraphData V) (ups : List Key) : (Option (Dict V P) → PlanState V P → Prop) → List (Constraint (World V P X) ℕ) →
    List (Constraint X (PlanState V P)) → Prop
  | nil {C} : SameChecks limit D ups C [] []
  | cons {C C' con con' cs cs'} (h : SameCheck limit D ups C con con')
      (himp : ∀ fl y t t' v, C fl y → con'.call y t = (.ok v, t') → v.Passed → C' fl y) (hr : SameChecks limit D ups C' cs cs') :
      SameChecks limit D ups C (con :: cs) (con' :: cs')

theorem SameChecks.of_forall {limit : ℕ} {D : GraphData V} {ups : List Key} {C : Option (Dict V P) → PlanState V P → Prop} {cs : List (Constraint (World V P X) ℕ)}
    {cs' : List (Constraint X (PlanState V P))} (h : List.Forall₂ (SameCheck limit D ups C) cs cs') : SameChecks limit D ups C cs cs' := by
  induction h with
  | nil => exact .nil
  | cons h _ ih => exact .cons h (fun _ _ _ _ _ h _ _ => h) ih

theorem flipsOf_frame {s s' : World V P X} (h : s'.1.frame = s.1.frame) (q : ℕ) : s'.flipsOf q = s.flipsOf q := by
  unfold World.flipsOf
  rw [h]

/-- The result of a proposal on objects and of one on values: both raise the same, or the new object has the new plan once the chain has erased the parent
of the current state. -/
def SameResult (C : Option (Dict V P) → PlanState V P → Prop) (st : ℕ) (s1 : World V P X) : Py ℕ → Py (PlanState V P) → Prop
  | .error e, .error e' => e = e'
  | .ok q, .ok y => Matches 2 (World.erase st s1) q y ∧ C ((World.erase st s1).flipsOf q) y
  | _, _ => False

/-- The proposal `prop` on objects makes the move `move` on values, whatever the world. -/
def SameMove (limit : ℕ) (D : GraphData V) (ups : List Key) (I : Assignment V P → Prop) (C : Option (Dict V P) → PlanState V P → Prop) (prop : ℕ → M (World V P X) ℕ)
    (move : PlanState V P → M X (PlanState V P)) : Prop :=
  ∀ (s : World V P X) (st : ℕ) (x : PlanState V P), Stage D ups s → s.plan st = some x.plan → ancestor (World.parent s) limit st = none → I x.plan →
    (prop st s).2.2 = (move x s.2).2 ∧ Reaches s (prop st s).2 ∧ SameResult C st (prop st s).2 (prop st s).1 (move x s.2).1

section sim
variable {limit : ℕ} {D : GraphData V} {ups : List Key} {I : Assignment V P → Prop} {C : Option (Dict V P) → PlanState V P → Prop}

theorem validator_same {cs : List (Constraint (World V P X) ℕ)} {cs' : List (Constraint X (PlanState V P))}
    (h : SameChecks limit D ups C cs cs') : SameAnswer limit D ups C (fun q => validator q cs) (fun y => validator y cs') := by
  induction h with
  | nil => intro s q y _ _ _; exact ⟨rfl, rfl, [], by simp, rfl⟩
  | @cons C C' con con' cs cs' hc himp _ ih =>
    intro s q y hs hm hC
    obtain ⟨h1, h2, ops, h3, h4⟩ := hc.2 s q y hs hm hC
    have hr : Reaches s (con.call q s).2 := ⟨ops, lookups_wf h3, h4⟩
    have hs1 := hs.reaches hr
    have hm1 : Matches limit (con.call q s).2 q y := hm.frame (by rw [h4, run_lookups_frame h3])
    have hfl : (con.call q s).2.flipsOf q = s.flipsOf q := flipsOf_frame (by rw [h4, run_lookups_frame h3]) q
    simp only [validator]
    rcases hu : con.call q s with ⟨e | v, s1⟩ <;> rcases hu' : con'.call y s.2 with ⟨e' | v', x1⟩ <;> rw [hu, hu'] at h1 h2 <;>
      simp only [reduceCtorEq, Except.error.injEq, Except.ok.injEq] at h1
    · rw [hu] at h4
      exact ⟨by rw [h1], h2, ops, h3, h4⟩
    · subst h1
      by_cases hv : v.Passed
      swap
      · rw [hu] at h4
        simp only at h2 h4
        rcases v with (_ | _) | (_ | _) | _
        · exact ⟨rfl, h2, ops, h3, h4⟩
        · exact absurd rfl hv
        · exact ⟨rfl, h2, ops, h3, h4⟩
        · exact absurd rfl hv
        · exact ⟨rfl, h2, ops, h3, h4⟩
      obtain ⟨g1, g2, ops', g3, g4⟩ := ih (con.call q s).2 q y hs1 hm1 (by rw [hfl]; exact himp _ _ _ _ _ hC hu' hv)
      rw [hu] at h4 g1 g2 g4
      simp only at h2 h4 g1 g2 g4
      rw [h2] at g1 g2
      have h5 : (validator q cs s1).2.1 = s.1.run (ops ++ ops') := by rw [g4, h4, run_append]
      have h6 : ∀ op ∈ ops ++ ops', op.IsLookup := fun op hop => (List.mem_append.1 hop).elim (h3 op) (g3 op)
      rcases v with (_ | _) | (_ | _) | _
      · exact ⟨rfl, h2, ops, h3, h4⟩
      · exact ⟨g1, g2, _, h6, h5⟩
      · exact ⟨rfl, h2, ops, h3, h4⟩
      · exact ⟨g1, g2, _, h6, h5⟩
      · exact ⟨rfl, h2, ops, h3, h4⟩

theorem SameAnswer.reaches {α : Type} {m : ℕ → M (World V P X) α} {m' : PlanState V P → M X α} (h : SameAnswer limit D ups C m m') {s : World V P X} {q : ℕ}
    {y : PlanState V P} (hs : Stage D ups s) (hm : Matches limit s q y) (hC : C (s.flipsOf q) y) :
    Reaches s (m q s).2 ∧ (m q s).2.1.frame = s.1.frame := by
  obtain ⟨-, -, ops, h3, h4⟩ := h s q y hs hm hC
  exact ⟨⟨ops, lookups_wf h3, h4⟩, by rw [h4, run_lookups_frame h3]⟩

/-- the outcome of a call of `next` on objects and on values -/
def SimNext (limit : ℕ) (D : GraphData V) (ups : List Key) (I : Assignment V P → Prop) (cs : List (Constraint (World V P X) ℕ)) (cs' : List (Constraint X (PlanState V P)))
    (s0 : World V P X) :
    Option (Py ℕ × Chain (World V P X) ℕ × World V P X) → Option (Py (PlanState V P) × Chain X (PlanState V P) × X) → Prop
  | none, none => True
  | some (.error e, _, s), some (.error e', _, x) => e = e' ∧ s.2 = x ∧ Reaches s0 s
  | some (.ok q, ch, s), some (.ok y, ch', x) => s.2 = x ∧ Reaches s0 s ∧ s.plan q = some y.plan ∧ ancestor (World.parent s) limit q = none ∧ I y.plan ∧
      ch.state = q ∧ ch'.state = y ∧ ch.isValid = cs ∧ ch'.isValid = cs' ∧ ch.counter = ch'.counter
  | _, _ => False

/-- the agreement of all callables of two chains -/
structure SameChain (limit : ℕ) (D : GraphData V) (ups : List Key) (I : Assignment V P → Prop) (C : Option (Dict V P) → PlanState V P → Prop) (c : ChainCfg (World V P X) ℕ)
    (cs : List (Constraint (World V P X) ℕ)) (c' : ChainCfg X (PlanState V P)) (cs' : List (Constraint X (PlanState V P))) : Prop where
  two : 2 ≤ limit
  erase : c.erase = World.erase
  erase' : ∀ r t, c'.erase r t = t
  steps : c.totalSteps = c'.totalSteps
  proposal : SameMove limit D ups I C c.proposal c'.proposal
  constraint : SameChecks limit D ups C cs cs'
  accept : SameAnswer limit D ups C c.accept c'.accept
  keeps : ∀ fl y t t', C fl y → y.plan.Coherent → y.plan.Covers D.graph.nodes → validator y cs' t = (.ok true, t') → I y.plan

variable {c : ChainCfg (World V P X) ℕ} {cs : List (Constraint (World V P X) ℕ)} {c' : ChainCfg X (PlanState V P)} {cs' : List (Constraint X (PlanState V P))}

theorem SimNext.trans {s0 s1 : World V P X} (hr : Reaches s0 s1) {o : Option (Py ℕ × Chain (World V P X) ℕ × World V P X)}
    {o' : Option (Py (PlanState V P) × Chain X (PlanState V P) × X)} (h : SimNext limit D ups I cs cs' s1 o o') : SimNext limit D ups I cs cs' s0 o o' := by
  rcases o with _ | ⟨e | q, ch, s⟩ <;> rcases o' with _ | ⟨e' | y, ch', x⟩ <;> try exact h
  · obtain ⟨h1, h2, h3⟩ := h
    exact ⟨h1, h2, hr.trans h3⟩
  · obtain ⟨h1, h2, h3⟩ := h
    exact ⟨h1, hr.trans h2, h3⟩

/-- one call of `next` after the first -/
theorem loop_same (h : SameChain limit D ups I C c cs c' cs') (k fuel : ℕ) : ∀ (s : World V P X) (ch : Chain (World V P X) ℕ) (ch' : Chain X (PlanState V P)),
    Stage D ups s → s.plan ch.state = some ch'.state.plan → ancestor (World.parent s) limit ch.state = none → I ch'.state.plan →
    ch.isValid = cs → ch'.isValid = cs' → SimNext limit D ups I cs cs' s (Chain.loop c ch k fuel s) (Chain.loop c' ch' k fuel s.2) := by
  induction fuel with
  | zero => intro s ch ch' _ _ _ _ _ _; trivial
  | succ fuel ih =>
    intro s ch ch' hs hp hd hI hv hv'
    unfold Chain.loop
    rw [h.steps]
    by_cases hk : (k : ℤ) < c'.totalSteps
    swap
    · rw [if_neg hk, if_neg hk]
      exact ⟨rfl, rfl, Reaches.refl _⟩
    rw [if_pos hk, if_pos hk]
    obtain ⟨h1, h2, h3⟩ := h.proposal s ch.state ch'.state hs hp hd hI
    rcases hu : c.proposal ch.state s with ⟨e | q, s1⟩ <;> rcases hu' : c'.proposal ch'.state s.2 with ⟨e' | y, x1⟩ <;> rw [hu, hu'] at h3 <;>
      simp only [SameResult] at h3
    · rw [hu] at h1 h2
      rw [hu'] at h1
      exact ⟨h3, h1, h2⟩
    obtain ⟨hm, hC⟩ := h3
    rw [hu] at h1 h2
    rw [hu'] at h1
    simp only at h1 h2 hm
    simp only
    rw [h.erase, h.erase', hv, hv', ← h1]
    set s2 := World.erase ch.state s1 with hs2
    have hr2 : Reaches s s2 := h2.trans (erase_reaches _ _)
    have hst2 := hs.reaches hr2
    have hm2 : Matches limit s2 q y := hm.mono h.two
    have hx2 : s1.2 = s2.2 := rfl
    have hd2 : World.parent s2 ch.state = none := parent_erase_self _ _
    obtain ⟨g1, g2, -⟩ := validator_same h.constraint s2 q y hst2 hm2 hC
    obtain ⟨g3, g4⟩ := (validator_same h.constraint).reaches hst2 hm2 hC
    rw [← hx2] at g1 g2
    simp only at g1 g2 g3 g4
    rcases hw : validator q cs s2 with ⟨e | b, s3⟩ <;> rcases hw' : validator y cs' s1.2 with ⟨e' | b', x3⟩ <;> rw [hw, hw'] at g1 <;>
      rw [hw, hw'] at g2 <;> rw [hw] at g3 g4 <;> simp only [reduceCtorEq, Except.error.injEq, Except.ok.injEq] at g1 g2
    · exact ⟨g1, g2, hr2.trans g3⟩
    subst g1
    have hr3 : Reaches s s3 := hr2.trans g3
    have hst3 := hs.reaches hr3
    have hp3 : s3.plan ch.state = some ch'.state.plan := plan_reaches hs.inv hr3 hp
    have hpar3 : World.parent s3 = World.parent s2 := by
      funext r
      unfold World.parent
      simp only at g4
      rw [g4]
    have hone : ∀ s' : World V P X, World.parent s' ch.state = none → ancestor (World.parent s') limit ch.state = none := fun s' hs' =>
      ancestor_mono (n := 1) (by have := h.two; omega) (by unfold ancestor; rw [hs']; rfl)
    rcases b with _ | _
    · simp only
      rw [← g2]
      exact (ih s3 ch ch' hst3 hp3 (hone s3 (by rw [hpar3, hd2])) hI hv hv').trans hr3
    simp only
    have hm3 : Matches limit s3 q y := hm2.frame g4
    have hC3 : C (s3.flipsOf q) y := by rw [flipsOf_frame g4]; exact hC
    obtain ⟨k1, k2, -⟩ := h.accept s3 q y hst3 hm3 hC3
    obtain ⟨k3, k4⟩ := h.accept.reaches hst3 hm3 hC3
    rw [g2] at k1 k2
    rcases ha : c.accept q s3 with ⟨e | b, s4⟩ <;> rcases ha' : c'.accept y x3 with ⟨e' | b', x4⟩ <;> rw [ha, ha'] at k1 k2 <;> rw [ha] at k3 k4 <;>
      simp only [reduceCtorEq, Except.error.injEq, Except.ok.injEq] at k1 k2
    · exact ⟨k1, k2, hr3.trans k3⟩
    subst k1
    have hr4 : Reaches s s4 := hr3.trans k3
    have hpar4 : World.parent s4 = World.parent s3 := by
      funext r
      unfold World.parent
      simp only at k4
      rw [k4]
    rcases b with _ | _
    · exact ⟨k2, hr4, plan_reaches hs.inv hr4 hp, hone s4 (by rw [hpar4, hpar3, hd2]), hI, rfl, rfl, rfl, rfl, rfl⟩
    · have hm4 : Matches limit s4 q y := hm3.frame k4
      exact ⟨k2, hr4, hm4.plan, hm4.depth, h.keeps _ y _ _ hC (hst3.coherent hm3.plan) (hst3.covers hm3.plan) hw', rfl, rfl, rfl, rfl, rfl⟩

theorem next_same (h : SameChain limit D ups I C c cs c' cs') (fuel : ℕ) {s : World V P X} {ch : Chain (World V P X) ℕ} {ch' : Chain X (PlanState V P)}
    (hs : Stage D ups s) (hp : s.plan ch.state = some ch'.state.plan) (hd : ancestor (World.parent s) limit ch.state = none) (hI : I ch'.state.plan)
    (hv : ch.isValid = cs) (hv' : ch'.isValid = cs') (hk : ch.counter = ch'.counter) :
    SimNext limit D ups I cs cs' s (Chain.next c ch fuel s) (Chain.next c' ch' fuel s.2) := by
  unfold Chain.next
  rw [← hk]
  rcases hc : ch.counter with _ | (_ | k)
  · exact ⟨rfl, rfl, Reaches.refl _⟩
  · exact ⟨rfl, Reaches.refl _, hp, hd, hI, rfl, rfl, hv, hv', rfl⟩
  · exact loop_same h (k + 1) fuel s ch ch' hs hp hd hI hv hv'

/-- the outcome of `list(chain)` on objects and on values -/
def SimList (s0 : World V P X) :
    Option (Py (List ℕ) × Chain (World V P X) ℕ × World V P X) → Option (Py (List (PlanState V P)) × Chain X (PlanState V P) × X) → Prop
  | none, none => True
  | some (.error e, _, s), some (.error e', _, x) => e = e' ∧ s.2 = x ∧ Reaches s0 s
  | some (.ok l, _, s), some (.ok l', _, x) => s.2 = x ∧ Reaches s0 s ∧ l.map s.plan = l'.map (fun y => some y.plan)
  | _, _ => False

theorem SimList.seen_eq {s0 : World V P X} {o : Option (Py (List ℕ) × Chain (World V P X) ℕ × World V P X)}
    {o' : Option (Py (List (PlanState V P)) × Chain X (PlanState V P) × X)} (h : SimList s0 o o') : seenObj o = seen o' := by
  rcases o with _ | ⟨e | q, ch, s⟩ <;> rcases o' with _ | ⟨e' | y, ch', x⟩ <;> try exact h.elim
  · rfl
  · obtain ⟨h1, h2, -⟩ := h
    simp only [seenObj, seen, h1, h2]
  · obtain ⟨h1, -, h2⟩ := h
    simp only [seenObj, seen, h1, h2]

theorem collect_same (h : SameChain limit D ups I C c cs c' cs') (fuel body : ℕ) :
    ∀ (s : World V P X) (ch : Chain (World V P X) ℕ) (ch' : Chain X (PlanState V P)), Stage D ups s → s.plan ch.state = some ch'.state.plan →
      ancestor (World.parent s) limit ch.state = none → I ch'.state.plan → ch.isValid = cs → ch'.isValid = cs' → ch.counter = ch'.counter →
      SimList s (Chain.collect c fuel body ch s) (Chain.collect c' fuel body ch' s.2) := by
  induction body with
  | zero => intro s ch ch' _ _ _ _ _ _ _; trivial
  | succ body ih =>
    intro s ch ch' hs hp hd hI hv hv' hk
    have hn := next_same h fuel hs hp hd hI hv hv' hk
    unfold Chain.collect
    rcases ho : Chain.next c ch fuel s with _ | ⟨e | q, ch1, s1⟩ <;> rcases ho' : Chain.next c' ch' fuel s.2 with _ | ⟨e' | y, ch1', x1⟩ <;> rw [ho, ho'] at hn <;>
      try exact hn.elim
    · trivial
    · obtain ⟨rfl, h2, h3⟩ := hn
      rcases e <;> first | exact ⟨rfl, h2, h3⟩ | exact ⟨h2, h3, rfl⟩
    · obtain ⟨h1, h2, h3, h4, h5, h6, h7, h8, h9, h10⟩ := hn
      simp only
      have hs1 := hs.reaches h2
      have hc := ih s1 ch1 ch1' hs1 (by rw [h6, h7]; exact h3) (by rw [h6]; exact h4) (by rw [h7]; exact h5) h8 h9 h10
      rw [h1] at hc
      rcases hr : Chain.collect c fuel body ch1 s1 with _ | ⟨e | l, ch2, s2⟩ <;> rcases hr' : Chain.collect c' fuel body ch1' x1 with _ | ⟨e' | l', ch2', x2⟩ <;>
        rw [hr, hr'] at hc <;> try exact hc.elim
      · trivial
      · obtain ⟨k1, k2, k3⟩ := hc
        exact ⟨k1, k2, h2.trans k3⟩
      · obtain ⟨k1, k2, k3⟩ := hc
        refine ⟨k1, h2.trans k2, ?_⟩
        rw [List.map_cons, List.map_cons, k3, plan_reaches hs1.inv k2 h3]

/-! ### Building the chain -/

theorem failed_same (h : List.Forall₂ (SameCheck limit D ups C) cs cs') :
    ∀ (s : World V P X) (q : ℕ) (y : PlanState V P), Stage D ups s → Matches limit s q y → C (s.flipsOf q) y →
      ((failedConstraints q cs s).1.map (List.map (·.name)) = (failedConstraints y cs' s.2).1.map (List.map (·.name))) ∧
      (failedConstraints q cs s).2.2 = (failedConstraints y cs' s.2).2 := by
  induction h with
  | nil => intro s q y _ _ _; exact ⟨rfl, rfl⟩
  | @cons con con' cs cs' hc _ ih =>
    intro s q y hs hm hC
    obtain ⟨h1, h2, ops, h3, h4⟩ := hc.2 s q y hs hm hC
    have hs1 := hs.reaches (s' := (con.call q s).2) ⟨ops, lookups_wf h3, h4⟩
    have hm1 : Matches limit (con.call q s).2 q y := hm.frame (by rw [h4, run_lookups_frame h3])
    obtain ⟨g1, g2⟩ := ih (con.call q s).2 q y hs1 hm1 (by rw [flipsOf_frame (show (con.call q s).2.1.frame = s.1.frame by rw [h4, run_lookups_frame h3])]; exact hC)
    simp only [failedConstraints]
    rcases hu : con.call q s with ⟨e | v, s1⟩ <;> rcases hu' : con'.call y s.2 with ⟨e' | v', x1⟩ <;> rw [hu, hu'] at h1 h2 <;>
      simp only [reduceCtorEq, Except.error.injEq, Except.ok.injEq] at h1
    · exact ⟨by rw [h1]; rfl, h2⟩
    · subst h1
      rw [hu] at g1 g2
      simp only at h2 g1 g2
      rw [h2] at g1 g2
      simp only
      rcases hf : failedConstraints q cs s1 with ⟨e | l, s2⟩ <;> rcases hf' : failedConstraints y cs' x1 with ⟨e' | l', x2⟩ <;> rw [hf, hf'] at g1 g2 <;>
        simp only [Except.map, reduceCtorEq, Except.error.injEq, Except.ok.injEq] at g1 g2
      · exact ⟨by rw [g1]; rfl, g2⟩
      · refine ⟨?_, g2⟩
        simp only [Except.map]
        rcases v.truthy with _ | _
        · simp [g1, hc.1]
        · simp [g1]

theorem raiseFailed_congr {S R S' R' : Type} {l : List (Constraint S R)} {l' : List (Constraint S' R')} (h : l.map (·.name) = l'.map (·.name)) :
    raiseFailed l = raiseFailed l' := by
  have : ∀ {S R : Type} (l : List (Constraint S R)), (l.all fun c => c.name.isSome) = (l.map (·.name)).all (·.isSome) := by
    intro S R l; rw [List.all_map]; rfl
  unfold raiseFailed
  rw [this l, this l', h]

/-- `MarkovChain.__init__` on objects and on values: both raise the same exception, or both build a chain and the heap is that of some look-ups. -/
theorem init_same (h : List.Forall₂ (SameCheck limit D ups C) cs cs') {s : World V P X} (hs : Stage D ups s) (hm : Matches limit s c.initial c'.initial)
    (hC : C (s.flipsOf c.initial) c'.initial) :
    (∃ e s1, Chain.init c cs s = (.error e, s1) ∧ Chain.init c' cs' s.2 = (.error e, s1.2)) ∨
    ∃ s1, Chain.init c cs s = (.ok ⟨cs, none, c.initial⟩, s1) ∧ Chain.init c' cs' s.2 = (.ok ⟨cs', none, c'.initial⟩, s1.2) ∧ Reaches s s1 ∧
      s1.1.frame = s.1.frame ∧ ∃ t, validator c'.initial cs' s.2 = (.ok true, t) := by
  obtain ⟨g1, g2, -⟩ := validator_same (.of_forall h) s _ _ hs hm hC
  obtain ⟨g3, g4⟩ := (validator_same (.of_forall h)).reaches hs hm hC
  unfold Chain.init checkInitial
  simp only at g1 g2 g3 g4
  rcases hw : validator c.initial cs s with ⟨e | b, s1⟩ <;> rcases hw' : validator c'.initial cs' s.2 with ⟨e' | b', x1⟩ <;> rw [hw, hw'] at g1 <;>
    rw [hw, hw'] at g2 <;> rw [hw] at g3 g4 <;> simp only [reduceCtorEq, Except.error.injEq, Except.ok.injEq] at g1 g2
  · exact .inl ⟨e, s1, rfl, by rw [← g1, ← g2]⟩
  subst g1
  rcases b with _ | _
  · left
    obtain ⟨k1, k2⟩ := failed_same h s1 _ _ (hs.reaches g3) (hm.frame g4) (by rw [flipsOf_frame g4]; exact hC)
    rw [g2] at k1 k2
    simp only
    rcases hf : failedConstraints c.initial cs s1 with ⟨e | l, s2⟩ <;> rcases hf' : failedConstraints c'.initial cs' x1 with ⟨e' | l', x2⟩ <;> rw [hf, hf'] at k1 k2 <;>
      simp only [Except.map, reduceCtorEq, Except.error.injEq, Except.ok.injEq] at k1 k2
    · exact ⟨e, s2, rfl, by rw [k1, k2]⟩
    · exact ⟨_, s2, rfl, by rw [raiseFailed_congr k1, k2]⟩
  · exact .inr ⟨s1, rfl, by rw [g2], g3, g4, x1, rfl⟩

end sim

end GC

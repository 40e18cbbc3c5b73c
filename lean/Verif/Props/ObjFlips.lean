import Verif.Props.ObjChain
import Verif.Props.SingleFlip

/-!
# C107: chains of single flips on partition objects with contiguity and population constraints

`single_flip_contiguous` reads the flips of the proposed object and its parent, `contiguous` reads the districts that the flips touch, and the bounds on populations read the tallies in
the caches.  On every chain of single flips that starts in a contiguous plan they answer as if the proposed plan alone was looked at.
-/

set_option linter.unusedSectionVars false
set_option autoImplicit false

namespace GC

variable {V P X : Type} [LinearOrder V] [LinearOrder P]

/-- The constraint is one that a chain of single flips may have after a test of contiguity (constraints/contiguity.py:66-138, constraints/validity.py:85-86): a tally is registered and
has no NaN in its columns; the search of `single_flip_contiguous` reads the graph and has enough steps to finish. -/
def Rule.FitsFlips (D : GraphData V) (ups : List Key) : Rule V P → Prop
  | .tally fields _ _ _ => Key.tally fields ∈ ups ∧ ∀ n, tallyFromNode D fields n ≠ ⊥
  | .singleFlip fuel _ adj _ => AdjDict D.graph adj ∧ 1 + (∑ v ∈ D.graph.nodes, ((adj.get? v).getD []).length) ≤ fuel
  | _ => True

/-- `single_flip_contiguous` or `contiguous` (constraints/contiguity.py:66-181) -/
def Rule.TestsContiguity : Rule V P → Prop
  | .contiguous _ | .singleFlip _ _ _ _ => True
  | _ => False

/-- The plan is contiguous and its districts have the names `labels`. -/
def WholePlan (G : Graph V) (labels : Finset P) (a : Assignment V P) : Prop := ContiguousPlan G a ∧ a.parts.keys.toFinset = labels

/-- The object is the start of the chain, with a contiguous plan, or it was made from a contiguous plan by moving one node into a district of one of its neighbours. -/
def FlipSound (G : Graph V) (labels : Finset P) (fl : Option (Dict V P)) (y : PlanState V P) : Prop :=
  (y.parent = none → ContiguousPlan G y.plan) ∧
    (∀ a, y.parent = some a → ContiguousPlan G a ∧ ∃ n B, fl = some ⟨[(n, B)]⟩ ∧ CanMove G a.mapping n B) ∧ y.plan.parts.keys.toFinset = labels

/-! ### The districts after a flip -/

section checks
variable {limit : ℕ} {D : GraphData V} {ups : List Key} {labels : Finset P}

theorem pyAll_one {α : Type} {f : α → Py Bool} {old : α} : ∀ {l : List α}, old ∈ l → (∀ x ∈ l, x ≠ old → f x = .ok true) → pyAll f l = f old := by
  intro l
  induction l with
  | nil => intro h; simp at h
  | cons x l ih =>
    intro h hl
    unfold pyAll
    by_cases hx : x = old
    · subst hx
      rcases hfx : f x with e | b
      · rfl
      · rcases b with _ | _
        · rfl
        · show (if true = true then pyAll f l else .ok false) = _
          rw [if_pos rfl, pyAll_true]
          intro z hz
          by_cases hzx : z = x
          · rw [hzx, hfx]
          · exact hl z (List.mem_cons_of_mem _ hz) hzx
    · rw [hl x List.mem_cons_self hx]
      show (if true = true then pyAll f l else .ok false) = _
      rw [if_pos rfl]
      exact ih ((List.mem_cons.1 h).resolve_left (fun h => hx h.symm)) (fun z hz => hl z (List.mem_cons_of_mem _ hz))

/-- After a move from a contiguous plan every district but the old one of the node is connected. -/
theorem others_connected {F : Frame V P} (hF : FrameInv F) {p q : ℕ} {v w : View V P} (hv : F.view p = some v) (hw : F.view q = some w)
    (hcw : ContiguousPlan F.data.graph w.assignment) {n : V} {A B : P} (hs : FlipSpec w.assignment ⟨[(n, B)]⟩ v.assignment)
    (hA : w.assignment.mapping.get? n = some A) (hB : ∃ m, F.data.graph.Adj n m ∧ w.assignment.mapping.get? m = some B) {part : P} {s : Finset V}
    (hps : v.assignment.parts.get? part = some s) (hne : part ≠ A) : ConnectedOn F.data.graph s := by
  by_cases hpB : part = B
  · subst hpB
    obtain ⟨m, hnm, hm⟩ := hB
    obtain ⟨t, ht⟩ := Dict.mem_keys_iff.1 ((hF.coherent q w hw).complete m part hm)
    have hst : s = insert n t := by
      ext x
      rw [(hF.coherent p v hv).agree part s hps, hs.get?, get?_one, Finset.mem_insert, (hF.coherent q w hw).agree part t ht]
      by_cases hx : x = n
      · simp [hx]
      · simp [hx]
    rw [hst]
    exact connectedOn_insert (hcw part t ht) (((hF.coherent q w hw).agree part t ht m).2 hm) hnm
  · refine hcw part s (unaffected_same hF hv hw hs hps ?_)
    rintro ⟨x, r, hx, h⟩
    rw [get?_one] at hx
    split_ifs at hx with hxn
    cases hx
    subst hxn
    rcases h with h | h
    · exact hpB h
    · rw [hA] at h
      exact hne (Option.some.inj h).symm

/-- the parent object of an object with a parent's plan -/
theorem parent_object {s : World V P X} (hs : Stage D ups s) {q : ℕ} {v : View V P} (hv : s.1.frame.view q = some v) {a : Assignment V P}
    (ha : s.parentPlan q = some a) : ∃ p w, v.parent = some p ∧ s.1.frame.view p = some w ∧ w.assignment = a := by
  unfold World.parentPlan at ha
  rw [parent_of_view hv] at ha
  rcases hp : v.parent with _ | p
  · rw [hp] at ha
    cases ha
  · rw [hp] at ha
    obtain ⟨w, hw, rfl⟩ := World.plan_eq_some.1 ha
    exact ⟨p, w, rfl, hw, rfl⟩

theorem no_parent {s : World V P X} (hs : Stage D ups s) {q : ℕ} {v : View V P} (hv : s.1.frame.view q = some v) (ha : s.parentPlan q = none) : v.parent = none := by
  rcases hp : v.parent with _ | p
  · rfl
  · obtain ⟨w, hl⟩ := hs.inv.frame.link q v p hv hp
    unfold World.parentPlan at ha
    rw [parent_of_view hv, hp] at ha
    have : World.plan s p = some w.assignment := World.plan_eq_some.2 ⟨w, hl.view, rfl⟩
    rw [Option.bind_some, this] at ha
    cases ha

/-- `contiguous` on an object of a chain of single flips: the exception of networkx for an emptied district, else whether the plan is contiguous -/
theorem contigCheck_flip (ord : SetOrder P) : SameCheck (X := X) limit D ups (FlipSound D.graph labels) (contigCheckObj ord) (contigCheck D.graph) := by
  refine ⟨rfl, fun s q y hs hm hC => ?_⟩
  classical
  obtain ⟨v, hv, hva⟩ := World.plan_eq_some.1 hm.plan
  have key : (contiguous ord s.1.frame q).map CVal.bool =
      if NonemptyPlan y.plan then .ok (.bool (decide (ContiguousPlan D.graph y.plan))) else .error PyErr.pointlessConcept := by
    by_cases hc : ContiguousPlan D.graph y.plan
    · rw [contiguous_of_plan hs.inv.frame ord hv (by rw [hs.graph, hva]; exact hc), if_pos (show NonemptyPlan y.plan from fun _ _ h => hc.nonempty h), decide_eq_true hc]
      rfl
    rcases hpar : y.parent with _ | a
    · exact absurd (hC.1 hpar) hc
    obtain ⟨ha, n, B, hfl, ⟨⟨A, hA, hAB⟩, hB⟩⟩ := hC.2.1 a hpar
    obtain ⟨p, w, hp, hw, rfl⟩ := parent_object hs hv (hm.parent.trans hpar)
    obtain ⟨flips, l, hfl', hsp, haf, hmem⟩ := affectedParts_child hs.inv.frame ord hv hp hw
    have hflv : s.flipsOf q = v.flips := by unfold World.flipsOf; rw [hv]; rfl
    rw [hflv, hfl'] at hfl
    cases hfl
    have hcw : ContiguousPlan s.1.frame.data.graph w.assignment := by rw [hs.graph]; exact ha
    have hoth := fun {part : P} {t : Finset V} (hps : v.assignment.parts.get? part = some t) (hne : part ≠ A) =>
      others_connected hs.inv.frame hv hw hcw hsp hA (by rw [hs.graph]; exact hB) hps hne
    have hAk : A ∈ v.assignment.parts.keys := by rw [hsp.keys]; exact (hs.inv.frame.coherent p w hw).complete n A hA
    obtain ⟨t, ht⟩ := Dict.mem_keys_iff.1 hAk
    have hnt : ¬ ConnectedOn D.graph t := by
      intro hct
      refine hc (fun part t' h => ?_)
      rw [← hva] at h
      by_cases hpa : part = A
      · subst hpa
        rw [ht] at h
        cases h
        exact hct
      · have := hoth h hpa
        rwa [hs.graph] at this
    have hAl : A ∈ l := (hmem A).2 ⟨n, B, by rw [get?_one, if_pos rfl], Or.inr hA⟩
    have hlk : ∀ x ∈ l, x ∈ v.assignment.parts.keys := by
      intro x hx
      obtain ⟨n', r, hn', h⟩ := (hmem x).1 hx
      rcases h with rfl | h
      · refine (hs.inv.frame.coherent q v hv).complete n' x ?_
        rw [hsp.get?, hn']; rfl
      · rw [hsp.keys]
        exact (hs.inv.frame.coherent p w hw).complete n' x h
    have hcont : contiguous ord s.1.frame q = (do
        let g ← subgraphOf s.1.frame.data.graph v.assignment A
        nxIsConnected g) := by
      unfold contiguous
      rw [hv]
      simp only
      show Except.bind (affectedParts ord s.1.frame v) _ = _
      rw [haf]
      refine pyAll_one hAl (fun x hx hne => ?_)
      obtain ⟨t', ht'⟩ := Dict.mem_keys_iff.1 (hlk x hx)
      exact (check_part hs.inv.frame hv ht').1.2 (hoth ht' hne)
    obtain ⟨k1, k2, k3⟩ := check_part hs.inv.frame hv ht
    rw [hcont]
    by_cases hte : t = ∅
    · rw [k3 hte, if_neg]
      · rfl
      · intro hn
        have := hn A t (by rw [← hva]; exact ht)
        rw [hte] at this
        exact Finset.not_nonempty_empty this
    · obtain ⟨b, hb⟩ := k2 (Finset.nonempty_iff_ne_empty.2 hte)
      rw [hb, if_pos]
      · have hbf : b = false := by
          rcases b with _ | _
          · rfl
          · have := k1.1 hb
            rw [hs.graph] at this
            exact absurd this hnt
        rw [hbf, decide_eq_false hc]
        rfl
      · intro part t' h
        rw [← hva] at h
        by_cases hpa : part = A
        · subst hpa
          rw [ht] at h
          cases h
          exact Finset.nonempty_iff_ne_empty.2 hte
        · exact (hoth h hpa).1
  refine ⟨key, rfl, [], by simp, rfl⟩

/-- `single_flip_contiguous` on an object of a chain of single flips: whether the plan is contiguous -/
theorem singleFlip_flip {fuel : ℕ} (ord : SetOrder P) {adj : Dict V (List V)} (draw : ℕ → V → ℕ) (hadj : AdjDict D.graph adj)
    (hfuel : 1 + (∑ v ∈ D.graph.nodes, ((adj.get? v).getD []).length) ≤ fuel) :
    SameCheck (X := X) limit D ups (FlipSound D.graph labels) (singleFlipObj fuel ord adj draw) (singleFlipCheck D.graph) := by
  refine ⟨rfl, fun s q y hs hm hC => ?_⟩
  classical
  obtain ⟨v, hv, hva⟩ := World.plan_eq_some.1 hm.plan
  have key : singleFlipContiguous fuel ord adj (draw q) s.1.frame q = some (.ok (decide (ContiguousPlan D.graph y.plan))) := by
    rcases hpar : y.parent with _ | a
    · have hc := hC.1 hpar
      have hnp := no_parent hs hv (hm.parent.trans hpar)
      have htp : s.1.frame.truthyParent v = none := by unfold Frame.truthyParent; rw [hnp]
      unfold singleFlipContiguous
      rw [hv]
      simp only
      rw [htp, Option.bind_none, decide_eq_true hc, contiguous_of_plan hs.inv.frame ord hv (by rw [hs.graph, hva]; exact hc)]
      cases v.flips <;> rfl
    · obtain ⟨ha, n, B, hfl, ⟨⟨A, hA, hAB⟩, hB⟩⟩ := hC.2.1 a hpar
      obtain ⟨p, w, hp, hw, rfl⟩ := parent_object hs hv (hm.parent.trans hpar)
      have hflv : s.flipsOf q = v.flips := by unfold World.flipsOf; rw [hv]; rfl
      rw [hflv] at hfl
      obtain ⟨b, h1, h2⟩ := singleFlip_child hs.inv.frame ord hv hp hw (by rw [hs.graph]; exact ha) hfl hA hAB (by rw [hs.graph]; exact hB)
        (by rw [hs.graph]; exact hadj) (draw q) (fuel := fuel) (by rw [hs.graph]; exact hfuel)
      rw [h1]
      rw [hs.graph, hva] at h2
      congr 2
      rw [Bool.eq_iff_iff, h2, decide_eq_true_iff]
  refine ⟨?_, rfl, [], by simp, rfl⟩
  show ((singleFlipContiguous fuel ord adj (draw q) s.1.frame q).getD (.error .recursionError)).map CVal.bool = _
  rw [key]
  rfl

theorem Rule.same_flip {r : Rule V P} (ht : r.TestsContiguity) (hf : r.FitsFlips D ups) : SameCheck (X := X) limit D ups (FlipSound D.graph labels) (r.obj limit) (r.val D) := by
  cases r with
  | plan f name => exact ht.elim
  | cuts f name => exact ht.elim
  | contiguous ord => exact contigCheck_flip ord
  | singleFlip fuel ord adj draw => exact singleFlip_flip ord draw hf.1 hf.2
  | tally fields lo hi name => exact ht.elim

/-- a test of contiguity is passed by contiguous plans only -/
theorem Rule.contiguous_of_passed {r : Rule V P} (ht : r.TestsContiguity) {y : PlanState V P} {t t' : X} {v : CVal}
    (h : (r.val D).call y t = (.ok v, t')) (hv : v.Passed) : ContiguousPlan D.graph y.plan := by
  classical
  cases r with
  | plan f name => exact ht.elim
  | cuts f name => exact ht.elim
  | contiguous ord =>
    change ((if NonemptyPlan y.plan then Except.ok (CVal.bool (decide (ContiguousPlan D.graph y.plan))) else .error PyErr.pointlessConcept), t) = (Except.ok v, t') at h
    split_ifs at h
    · simp only [Prod.mk.injEq, Except.ok.injEq] at h
      rw [← h.1] at hv
      exact of_decide_eq_true hv
    · simp at h
  | singleFlip fuel ord adj draw =>
    change (Except.ok (CVal.bool (decide (ContiguousPlan D.graph y.plan))), t) = (Except.ok v, t') at h
    simp only [Prod.mk.injEq, Except.ok.injEq] at h
    rw [← h.1] at hv
    exact of_decide_eq_true hv
  | tally fields lo hi name => exact ht.elim

theorem Rule.same_after {r : Rule V P} (h2 : 2 ≤ limit) (hf : r.FitsFlips D ups) :
    SameCheck (X := X) 2 D ups (fun fl y => FlipSound D.graph labels fl y ∧ ContiguousPlan D.graph y.plan) (r.obj limit) (r.val D) := by
  have weaken : ∀ {C C' : Option (Dict V P) → PlanState V P → Prop} {con : Constraint (World V P X) ℕ} {con' : Constraint X (PlanState V P)}, (∀ fl y, C' fl y → C fl y) →
      SameCheck 2 D ups C con con' → SameCheck 2 D ups C' con con' := fun h hc => ⟨hc.1, fun s q y hs hm hC => hc.2 s q y hs hm (h _ _ hC)⟩
  cases r with
  | plan f name => exact planCheck_same f name
  | cuts f name => exact ⟨rfl, (cutCheck_same (limit := limit) f name).2.mono h2⟩
  | contiguous ord => exact weaken (fun _ _ h => h.1) (contigCheck_flip ord)
  | singleFlip fuel ord adj draw => exact weaken (fun _ _ h => h.1) (singleFlip_flip ord draw hf.1 hf.2)
  | tally fields lo hi name => exact weaken (fun _ _ h => ⟨h.2, fun a ha => (h.1.2.1 a ha).1⟩) (tallyCheck_same h2 hf.1 hf.2 lo hi name)

/-! ### The chain -/

/-- constraints on the plan or the cut edges, then a test of contiguity, then any constraints -/
theorem flip_checks (h2 : 2 ≤ limit) {pre : List (Rule V P)} {c : Rule V P} {post : List (Rule V P)} (hpre : ∀ r ∈ pre, r.Simple) (hc : c.TestsContiguity)
    (hcf : c.FitsFlips D ups) (hpost : ∀ r ∈ post, r.FitsFlips D ups) :
    SameChecks (X := X) 2 D ups (FlipSound D.graph labels) ((pre ++ c :: post).map (Rule.obj limit)) ((pre ++ c :: post).map (Rule.val D)) := by
  induction pre with
  | nil =>
    refine .cons (C' := fun fl y => FlipSound D.graph labels fl y ∧ ContiguousPlan D.graph y.plan) ?_ ?_ (.of_forall (forall₂_rules (fun r hr => Rule.same_after h2 (hpost r hr))))
    · have h := Rule.same_flip (X := X) (limit := limit) (labels := labels) hc hcf
      exact ⟨h.1, h.2.mono h2⟩
    · intro fl y t t' v hC h hv
      exact ⟨hC, Rule.contiguous_of_passed hc h hv⟩
  | cons r pre ih =>
    have h := Rule.same_simple (X := X) (limit := limit) (D := D) (ups := ups) (C := FlipSound D.graph labels) (hpre r List.mem_cons_self)
    exact .cons ⟨h.1, h.2.mono h2⟩ (fun _ _ _ _ _ h _ _ => h) (ih (fun r hr => hpre r (List.mem_cons_of_mem _ hr)))

theorem flip_all (h2 : 2 ≤ limit) {pre : List (Rule V P)} {c : Rule V P} {post : List (Rule V P)} (hpre : ∀ r ∈ pre, r.Simple)
    (hcf : c.FitsFlips D ups) (hpost : ∀ r ∈ post, r.FitsFlips D ups) :
    List.Forall₂ (SameCheck (X := X) 2 D ups (fun fl y => FlipSound D.graph labels fl y ∧ ContiguousPlan D.graph y.plan)) ((pre ++ c :: post).map (Rule.obj limit))
      ((pre ++ c :: post).map (Rule.val D)) := by
  refine forall₂_rules (fun r hr => ?_)
  rcases List.mem_append.1 hr with hr | hr
  · have h := Rule.same_simple (X := X) (limit := limit) (D := D) (ups := ups) (C := fun fl y => FlipSound D.graph labels fl y ∧ ContiguousPlan D.graph y.plan) (hpre r hr)
    exact ⟨h.1, h.2.mono h2⟩
  · rcases List.mem_cons.1 hr with rfl | hr
    · exact Rule.same_after h2 hcf
    · exact Rule.same_after h2 (hpost r hr)

/-- a validated plan is contiguous -/
theorem contiguous_of_valid {pre : List (Rule V P)} {c : Rule V P} {post : List (Rule V P)} (hc : c.TestsContiguity) {y : PlanState V P} {t t' : X}
    (h : validator y ((pre ++ c :: post).map (Rule.val D)) t = (.ok true, t')) : ContiguousPlan D.graph y.plan := by
  have step : ∀ {con : Constraint X (PlanState V P)} {cs : List (Constraint X (PlanState V P))} {t t' : X}, validator y (con :: cs) t = (.ok true, t') →
      ∃ v t1, con.call y t = (.ok v, t1) ∧ v.Passed ∧ validator y cs t1 = (.ok true, t') := by
    intro con cs t t' h
    unfold validator at h
    rcases hu : con.call y t with ⟨e | v, t1⟩
    · rw [hu] at h; simp at h
    · rw [hu] at h
      rcases v with (_ | _) | (_ | _) | _
      · simp at h
      · exact ⟨_, t1, rfl, rfl, h⟩
      · simp at h
      · exact ⟨_, t1, rfl, rfl, h⟩
      · simp at h
  induction pre generalizing t with
  | nil =>
    obtain ⟨v, t1, h1, h2, -⟩ := step h
    exact Rule.contiguous_of_passed hc h1 h2
  | cons r pre ih =>
    obtain ⟨v, t1, -, -, h3⟩ := step h
    exact ih h3

end checks

section kinds
variable {limit : ℕ} {D : GraphData V} {ups : List Key} {labels : Finset P} {N : ℕ} {labels : Finset P}

theorem flipSound_none {a : Assignment V P} (ha : WholePlan D.graph labels a) (fl : Option (Dict V P)) : FlipSound D.graph labels fl ⟨a, none⟩ :=
  ⟨fun _ => ha.1, fun a' h => (by cases h), ha.2⟩

theorem flipSound_some {a b : Assignment V P} {n : V} {B : P} (hc : a.Coherent) (ha : WholePlan D.graph labels a) (hm : CanMove D.graph a.mapping n B)
    (hb : a.flip ⟨[(n, B)]⟩ = .ok b) :
    FlipSound D.graph labels (some ⟨[(n, B)]⟩) ⟨b, some a⟩ :=
  ⟨fun h => (by cases h), fun a' h => (by cases h; exact ⟨ha.1, _, _, rfl, hm⟩), by rw [show (⟨b, some a⟩ : PlanState V P).plan.parts.keys = a.parts.keys from (flip_ok hc (one_wf n B) hb).keys]; exact ha.2⟩

theorem random_sound (hN : 0 < N) :
    SameMove limit D ups (WholePlan D.graph labels) (FlipSound D.graph labels) (proposeRandomFlip (uniRand N) limit : ℕ → M (World V P Tape) ℕ) (randomMove N D.graph) := by
  refine sameMove_of_flips (f := fun a => randomFlip (uniRand N) a (cutsOf D.graph a.mapping)) (fun x => ?_)
    (fun s st a hs ha hd => proposeWith_cuts hs ha hd) (fun a w flips w' h => randomFlip_wf h) (fun a w w' hG ha hcov hI h => flipSound_none hI)
    (fun a w w' flips b hG ha hcov hI h hb => ?_)
  · unfold randomMove
    congr 1
  · rcases randomFlip_ok (uniRand_valid hN) hG hcov h with ⟨h', -⟩ | ⟨v, q, h', hm⟩
    · cases h'
    · cases h'
      exact flipSound_some ha hI hm hb

theorem slow_sound (hN : 0 < N) :
    SameMove limit D ups (WholePlan D.graph labels) (FlipSound D.graph labels) (slowReversiblePropose (uniRand N) limit : ℕ → M (World V P Tape) ℕ) (slowMove N D.graph) := by
  refine sameMove_of_flips (f := fun a => do return some (← slowFlip (uniRand N) a (cutsOf D.graph a.mapping))) (fun x => (some_bind x).symm)
    (fun s st a hs ha hd => proposeWith_cuts hs ha hd) (fun a w flips w' h => slowFlip_wf h) (fun a w w' hG ha hcov hI h => flipSound_none hI)
    (fun a w w' flips b hG ha hcov hI h hb => ?_)
  obtain ⟨d, w1, h1, g1⟩ := M.bind_eq_ok h
  cases g1
  obtain ⟨v, q, rfl, hm⟩ := slowFlip_ok (uniRand_valid hN) hG hcov h1
  exact flipSound_some ha hI hm hb

theorem bi_sound (hN : 0 < N) :
    SameMove limit D ups (WholePlan D.graph labels) (FlipSound D.graph labels) (slowReversibleProposeBi (uniRand N) limit : ℕ → M (World V P Tape) ℕ) (biMove N D.graph) := by
  refine sameMove_of_flips (f := fun a => do return some (← slowFlipBi (uniRand N) D.graph a (cutsOf D.graph a.mapping))) (fun x => (some_bind x).symm)
    (fun s st a hs ha hd => proposeWith_cuts hs ha hd) (fun a w flips w' h => slowFlipBi_wf h) (fun a w w' hG ha hcov hI h => flipSound_none hI)
    (fun a w w' flips b hG ha hcov hI h hb => ?_)
  obtain ⟨d, w1, h1, g1⟩ := M.bind_eq_ok h
  cases g1
  obtain ⟨v, q, rfl, hm⟩ := slowFlipBi_ok (uniRand_valid hN) hG h1
  exact flipSound_some ha hI hm hb

/-- every proposal of single flips moves one node to a district of a neighbour -/
theorem flip_kind_sound (hN : 0 < N) (w : FlipKind) :
    SameMove limit D ups (WholePlan D.graph labels) (FlipSound D.graph labels) (w.obj (uniRand N) limit : ℕ → M (World V P Tape) ℕ) (w.val N D.graph) := by
  cases w with
  | random => exact random_sound hN
  | slow => exact slow_sound hN
  | slowBi => exact bi_sound hN

end kinds

theorem sound_flipChain {limit : ℕ} {D : GraphData V} {ups : List Key} {labels : Finset P} (h2 : 2 ≤ limit) {N : ℕ} (hN : 0 < N) (w : FlipKind) (acc : AcceptKind) {pre : List (Rule V P)}
    {c : Rule V P} {post : List (Rule V P)} (hpre : ∀ r ∈ pre, r.Simple) (hc : c.TestsContiguity) (hcf : c.FitsFlips D ups) (hpost : ∀ r ∈ post, r.FitsFlips D ups) (st : ℕ)
    (x : PlanState V P) (n : ℤ) :
    SameChain 2 D ups (WholePlan D.graph labels) (FlipSound D.graph labels) (objChain (w.obj (uniRand N) limit) (acc.obj (uniRand N) limit) st n)
      ((pre ++ c :: post).map (Rule.obj limit)) (flipChain (w.val N D.graph) (acc.val N D.graph) x n) ((pre ++ c :: post).map (Rule.val D)) where
  two := le_rfl
  erase := rfl
  erase' := fun _ _ => rfl
  steps := rfl
  proposal := (flip_kind_sound hN w).mono h2
  constraint := flip_checks h2 hpre hc hcf hpost
  accept := (accept_kind_same N acc).mono h2
  keeps := fun _ _ _ _ hC _ _ h => ⟨contiguous_of_valid hc h, hC.2.2⟩

section theorems
variable {D : GraphData V} {ups : List Key} {ops : List (Op V P)} {limit st : ℕ} {a : Assignment V P}

/-- **C107** (the moves) For every history of partition objects, every proposal of single flips, every acceptance function, every list of constraints that has a test of contiguity before
the bounds on tallies, every length and every tape: building the chain on an object with a contiguous plan and reading the whole chain shows the plans of the chain of plans, or the same
exception, and leaves the same random numbers. -/
theorem C107_flips (hD : D.graph.WF) (hops : ∀ op ∈ ops, op.WF) (hcut : Key.cutEdges ∈ ups) (h2 : 2 ≤ limit) (N : ℕ) (hN : 0 < N) (w : FlipKind) (acc : AcceptKind)
    (pre : List (Rule V P)) (c : Rule V P) (post : List (Rule V P)) (hpre : ∀ r ∈ pre, r.Simple) (hc : c.TestsContiguity) (hcf : c.FitsFlips D ups)
    (hpost : ∀ r ∈ post, r.FitsFlips D ups) (t : Tape) (hp : (startWorld D ups ops t).plan st = some a) (hcon : ContiguousPlan D.graph a)
    (hd : (Heap.after D ups ops).frame.Shallow 2 st)
    (hpar : ∀ b, (startWorld D ups ops t).parentPlan st = some b → ContiguousPlan D.graph b ∧ ∃ n B, (startWorld D ups ops t).flipsOf st = some ⟨[(n, B)]⟩ ∧ CanMove D.graph b.mapping n B)
    (n : ℤ) (fuel body : ℕ) :
    runObj (objChain (w.obj (uniRand N) limit) (acc.obj (uniRand N) limit) st n) ((pre ++ c :: post).map (Rule.obj limit)) fuel body (startWorld D ups ops t) =
      runPlans (flipChain (w.val N D.graph) (acc.val N D.graph) ⟨a, (startWorld D ups ops t).parentPlan st⟩ n) ((pre ++ c :: post).map (Rule.val D)) fuel body t :=
  run_same (sound_flipChain (labels := a.parts.keys.toFinset) h2 hN w acc hpre hc hcf hpost st ⟨a, (startWorld D ups ops t).parentPlan st⟩ n) (flip_all h2 hpre hcf hpost) (start_stage hD hops hcut t)
    ⟨hp, rfl, ancestor_of_shallow hd⟩ ⟨⟨fun _ => hcon, hpar, rfl⟩, hcon⟩ ⟨hcon, rfl⟩ fuel body

end theorems

/-! ### The usual constraints as a condition on the plan -/

open Classical in
/-- every district in `labels` is contiguous -/
noncomputable def wholeDistricts (G : Graph V) (labels : Finset P) (m : V → Option P) : Bool :=
  decide (∀ p ∈ labels, ConnectedOn G (G.nodes.filter (fun v => m v = some p)))

open Classical in
/-- every district in `labels` has a population between `lo` and `hi` -/
noncomputable def popsWithin (G : Graph V) (pop : V → ℚ) (labels : Finset P) (lo hi : ℚ) (m : V → Option P) : Bool :=
  decide (∀ p ∈ labels, lo ≤ ∑ v ∈ G.nodes.filter (fun v => m v = some p), pop v ∧ ∑ v ∈ G.nodes.filter (fun v => m v = some p), pop v ≤ hi)

theorem wholeDistricts_iff {G : Graph V} {labels : Finset P} {m : V → Option P} :
    wholeDistricts G labels m = true ↔ ∀ p ∈ labels, ConnectedOn G (G.nodes.filter (fun v => m v = some p)) := by
  classical
  unfold wholeDistricts
  exact decide_eq_true_iff

theorem popsWithin_iff {G : Graph V} {pop : V → ℚ} {labels : Finset P} {lo hi : ℚ} {m : V → Option P} : popsWithin G pop labels lo hi m = true ↔
    ∀ p ∈ labels, lo ≤ ∑ v ∈ G.nodes.filter (fun v => m v = some p), pop v ∧ ∑ v ∈ G.nodes.filter (fun v => m v = some p), pop v ≤ hi := by
  unfold popsWithin
  exact decide_eq_true_iff

/-- the districts are contiguous and have populations between `lo` and `hi` -/
noncomputable def goodPlan (G : Graph V) (pop : V → ℚ) (labels : Finset P) (lo hi : ℚ) (m : V → Option P) : Bool :=
  wholeDistricts G labels m && popsWithin G pop labels lo hi m

/-- `[single_flip_contiguous, within_percent_of_ideal_population(initial_partition, percent)]` with the bounds `lo` and `hi` -/
def flipRules (fuel : ℕ) (ord : SetOrder P) (adj : Dict V (List V)) (draw : ℕ → V → ℕ) (col : String) (lo hi : ℚ) (name : Option String) : List (Rule V P) :=
  [.singleFlip fuel ord adj draw, .tally [col] lo hi name]

/-- the same as two conditions on the plan -/
noncomputable def flipConditions (D : GraphData V) (col : String) (labels : Finset P) (lo hi : ℚ) (name : Option String) : List (Constraint X (PlanState V P)) :=
  [planCheck (fun a => .ok (.bool (wholeDistricts D.graph labels a.mapping.get?))) (some "single_flip_contiguous"),
    planCheck (fun a => .ok (.bool (popsWithin D.graph (nodePop D col) labels lo hi a.mapping.get?))) name]

theorem validator_bool {x : PlanState V P} {con : Constraint X (PlanState V P)} {cs : List (Constraint X (PlanState V P))} {t : X} {b : Bool} (h : con.call x t = (.ok (.bool b), t)) :
    validator x (con :: cs) t = if b then validator x cs t else (.ok false, t) := by
  rw [validator]
  simp only [h]
  cases b <;> rfl

theorem flipConditions_decide (D : GraphData V) (col : String) (labels : Finset P) (lo hi : ℚ) (name : Option String) :
    Decides (goodPlan D.graph (nodePop D col) labels lo hi) (flipConditions D col labels lo hi name) := by
  intro x t
  unfold flipConditions goodPlan
  rw [validator_bool (b := wholeDistricts D.graph labels x.plan.mapping.get?) rfl]
  cases wholeDistricts D.graph labels x.plan.mapping.get?
  · rfl
  · rw [if_pos rfl, validator_bool (b := popsWithin D.graph (nodePop D col) labels lo hi x.plan.mapping.get?) rfl, Bool.true_and]
    cases popsWithin D.graph (nodePop D col) labels lo hi x.plan.mapping.get? <;> rfl

section conditions
variable {limit : ℕ} {D : GraphData V} {ups : List Key}

/-- the nodes of a district, from the mapping -/
theorem district_filter {G : Graph V} {a : Assignment V P} (ha : a.Coherent) (hcov : a.Covers G.nodes) {p : P} {s : Finset V} (h : a.parts.get? p = some s) :
    G.nodes.filter (fun v => a.mapping.get? v = some p) = s := by
  ext v
  rw [Finset.mem_filter, ha.agree p s h]
  exact ⟨fun hv => hv.2, fun hv => ⟨(hcov v).1 (Dict.mem_keys_iff.2 ⟨p, hv⟩), hv⟩⟩

theorem contiguous_iff_whole {G : Graph V} {a : Assignment V P} (ha : a.Coherent) (hcov : a.Covers G.nodes) {labels : Finset P} (hl : a.parts.keys.toFinset = labels) :
    ContiguousPlan G a ↔ wholeDistricts G labels a.mapping.get? = true := by
  classical
  unfold wholeDistricts
  rw [decide_eq_true_iff, ← hl]
  constructor
  · intro h p hp
    obtain ⟨s, hs⟩ := Dict.mem_keys_iff.1 (List.mem_toFinset.1 hp)
    rw [district_filter ha hcov hs]
    exact h p s hs
  · intro h p s hs
    have := h p (List.mem_toFinset.2 (Dict.mem_keys_iff.2 ⟨s, hs⟩))
    rwa [district_filter ha hcov hs] at this

theorem tallies_iff_within {a : Assignment V P} (ha : a.Coherent) (hcov : a.Covers D.graph.nodes) {labels : Finset P} (hl : a.parts.keys.toFinset = labels)
    (hne : labels.Nonempty) (col : String) (lo hi : ℚ) :
    boundsCall lo hi (.container (planTallies D [col] a)) = .ok (popsWithin D.graph (nodePop D col) labels lo hi a.mapping.get?) := by
  classical
  have hmem : ∀ z, z ∈ planTallies D [col] a ↔ ∃ p ∈ labels, z = ∑ v ∈ D.graph.nodes.filter (fun v => a.mapping.get? v = some p), nodePop D col v := by
    intro z
    unfold planTallies
    rw [List.mem_map, ← hl]
    constructor
    · rintro ⟨⟨p, s⟩, he, rfl⟩
      have hg := Dict.get?_of_mem_entries ha.parts_wf he
      exact ⟨p, List.mem_toFinset.2 (Dict.mem_keys_iff.2 ⟨s, hg⟩), by rw [district_filter ha hcov hg]; rfl⟩
    · rintro ⟨p, hp, rfl⟩
      obtain ⟨s, hs⟩ := Dict.mem_keys_iff.1 (List.mem_toFinset.1 hp)
      exact ⟨(p, s), Dict.mem_entries_of_get? hs, by rw [district_filter ha hcov hs]; rfl⟩
  obtain ⟨h1, h2, -⟩ := C20_bounds lo hi (planTallies D [col] a)
  unfold popsWithin
  by_cases h : ∀ p ∈ labels, lo ≤ ∑ v ∈ D.graph.nodes.filter (fun v => a.mapping.get? v = some p), nodePop D col v ∧
      ∑ v ∈ D.graph.nodes.filter (fun v => a.mapping.get? v = some p), nodePop D col v ≤ hi
  · rw [decide_eq_true h, h1]
    refine ⟨?_, fun z hz => ?_⟩
    · obtain ⟨p, hp⟩ := hne
      intro h0
      have := (hmem _).2 ⟨p, hp, rfl⟩
      rw [h0] at this
      simp at this
    · obtain ⟨p, hp, rfl⟩ := (hmem z).1 hz
      exact h p hp
  · rw [decide_eq_false h, h2]
    obtain ⟨p, hp, hnp⟩ := not_forall₂.1 h
    exact ⟨_, (hmem _).2 ⟨p, hp, rfl⟩, hnp⟩

/-- Two constraints on values that agree on coherent plans are interchangeable. -/
theorem SameCheck.congr {C C' : Option (Dict V P) → PlanState V P → Prop} {con : Constraint (World V P X) ℕ} {con' con'' : Constraint X (PlanState V P)}
    (h : SameCheck limit D ups C con con') (hn : con'.name = con''.name) (hw : ∀ fl y, C' fl y → C fl y)
    (he : ∀ fl y t, C' fl y → y.plan.Coherent → y.plan.Covers D.graph.nodes → con'.call y t = con''.call y t) : SameCheck limit D ups C' con con'' := by
  refine ⟨h.1.trans hn, fun s q y hs hm hC => ?_⟩
  obtain ⟨h1, h2, h3⟩ := h.2 s q y hs hm (hw _ _ hC)
  rw [← he _ y s.2 hC (hs.coherent hm.plan) (hs.covers hm.plan)]
  exact ⟨h1, h2, h3⟩

theorem flipConditions_same {fuel : ℕ} {ord : SetOrder P} {adj : Dict V (List V)} {draw : ℕ → V → ℕ} {col : String} {labels : Finset P} (h2 : 2 ≤ limit) (hne : labels.Nonempty)
    (hadj : AdjDict D.graph adj) (hfuel : 1 + (∑ v ∈ D.graph.nodes, ((adj.get? v).getD []).length) ≤ fuel) (hk : Key.tally [col] ∈ ups)
    (hcol : ∀ v, tallyFromNode D [col] v ≠ ⊥) (lo hi : ℚ) (name : Option String) :
    SameChecks (X := X) 2 D ups (FlipSound D.graph labels) ((flipRules fuel ord adj draw col lo hi name).map (Rule.obj limit)) (flipConditions D col labels lo hi name) := by
  refine .cons (C' := fun fl y => FlipSound D.graph labels fl y ∧ wholeDistricts D.graph labels y.plan.mapping.get? = true) ?_ ?_ (.of_forall (.cons ?_ .nil))
  · refine SameCheck.congr (singleFlip_flip ord draw hadj hfuel) rfl (fun _ _ h => h) (fun fl y t hC hc hcov => ?_)
    classical
    show (Except.ok (CVal.bool (decide (ContiguousPlan D.graph y.plan))), t) = (Except.ok (CVal.bool (wholeDistricts D.graph labels y.plan.mapping.get?)), t)
    have := contiguous_iff_whole hc hcov hC.2.2
    congr 3
    rw [Bool.eq_iff_iff, decide_eq_true_iff, this]
  · intro fl y t t' v hC h hv
    refine ⟨hC, ?_⟩
    change (Except.ok (CVal.bool (wholeDistricts D.graph labels y.plan.mapping.get?)), t) = (Except.ok v, t') at h
    simp only [Prod.mk.injEq, Except.ok.injEq] at h
    rw [← h.1] at hv
    exact hv
  · have hbase := (Rule.same_after (X := X) (r := (.tally [col] lo hi name : Rule V P)) (limit := limit) (labels := labels) h2 ⟨hk, hcol⟩)
    have hcoh : SameCheck (X := X) 2 D ups (fun fl y => FlipSound D.graph labels fl y ∧ wholeDistricts D.graph labels y.plan.mapping.get? = true)
        (tallyCheckObj limit [col] lo hi name) (tallyCheck D [col] lo hi name) := by
      refine ⟨hbase.1, fun s q y hs hm hC => hbase.2 s q y hs hm ⟨hC.1, ?_⟩⟩
      exact (contiguous_iff_whole (hs.coherent hm.plan) (hs.covers hm.plan) hC.1.2.2).2 hC.2
    refine SameCheck.congr hcoh rfl (fun _ _ h => h) (fun fl y t hC hc hcov => ?_)
    show ((boundsCall lo hi (.container (planTallies D [col] y.plan))).map CVal.bool, t) = (Except.ok (CVal.bool (popsWithin D.graph (nodePop D col) labels lo hi y.plan.mapping.get?)), t)
    rw [tallies_iff_within hc hcov hC.1.2.2 hne]
    rfl

end conditions

section ensembles
variable {D : GraphData V} {ups : List Key} {ops : List (Op V P)} {limit st : ℕ} {a : Assignment V P} {labels : Finset P}

/-- the chain with the usual constraints, and the chain of plans whose constraint is `goodPlan` -/
theorem usual_flipChain {fuel : ℕ} {ord : SetOrder P} {adj : Dict V (List V)} {draw : ℕ → V → ℕ} {col : String} (h2 : 2 ≤ limit) (hne : labels.Nonempty) (hadj : AdjDict D.graph adj)
    (hfuel : 1 + (∑ v ∈ D.graph.nodes, ((adj.get? v).getD []).length) ≤ fuel) (hk : Key.tally [col] ∈ ups) (hcol : ∀ v, tallyFromNode D [col] v ≠ ⊥) {N : ℕ} (hN : 0 < N)
    (w : FlipKind) (acc : AcceptKind) (lo hi : ℚ) (name : Option String) (st : ℕ) (x : PlanState V P) (n : ℤ) :
    SameChain 2 D ups (fun a => WholePlan D.graph labels a) (FlipSound D.graph labels) (objChain (w.obj (uniRand N) limit) (acc.obj (uniRand N) limit) st n)
      ((flipRules fuel ord adj draw col lo hi name).map (Rule.obj limit)) (flipChain (w.val N D.graph) (acc.val N D.graph) x n) (flipConditions D col labels lo hi name) where
  two := le_rfl
  erase := rfl
  erase' := fun _ _ => rfl
  steps := rfl
  proposal := (flip_kind_sound hN w).mono h2
  constraint := flipConditions_same h2 hne hadj hfuel hk hcol lo hi name
  accept := (accept_kind_same N acc).mono h2
  keeps := fun fl y t t' hC hc hcov h => by
    rw [flipConditions_decide] at h
    have h1 : goodPlan D.graph (nodePop D col) labels lo hi y.plan.mapping.get? = true := by
      simpa using congrArg Prod.fst h
    exact ⟨(contiguous_iff_whole hc hcov hC.2.2).2 (Bool.and_eq_true_iff.1 h1).1, hC.2.2⟩

variable {fuel : ℕ} {ord : SetOrder P} {adj : Dict V (List V)} {draw : ℕ → V → ℕ} {col : String} {lo hi : ℚ} {name : Option String}

/-- **C107** (means) With `[single_flip_contiguous, within_percent_of_ideal_population]`, every mean over runs of objects is the mean over runs of plans with the condition that the
districts are contiguous and their populations within the bounds. -/
theorem C107_flip_mean (hD : D.graph.WF) (hops : ∀ op ∈ ops, op.WF) (hcut : Key.cutEdges ∈ ups) (h2 : 2 ≤ limit) (hadj : AdjDict D.graph adj)
    (hfuel : 1 + (∑ v ∈ D.graph.nodes, ((adj.get? v).getD []).length) ≤ fuel) (hk : Key.tally [col] ∈ ups) (hcol : ∀ v, tallyFromNode D [col] v ≠ ⊥) {N : ℕ} (hN : 0 < N) (L : ℕ)
    (w : FlipKind) (acc : AcceptKind) (hp : ((Heap.after D ups ops).frame.view st).map (·.assignment) = some a) (hd : (Heap.after D ups ops).frame.Shallow 2 st)
    (hlab : a.parts.keys.toFinset = labels) (hne : labels.Nonempty) (hc : ContiguousPlan D.graph a) (n : ℤ) (f body : ℕ) (ch : Chain (World V P Tape) ℕ)
    (hch : ch.isValid = (flipRules fuel ord adj draw col lo hi name).map (Rule.obj limit)) (ch' : Chain Tape (PlanState V P))
    (hch' : ch'.isValid = flipConditions D col labels lo hi name) {α : Type} (φ : Assignment V P → α) (F : List α → ℚ) :
    avg N L (fun t => seenValue φ F (seenObj (ch.list (objChain (w.obj (uniRand N) limit) (acc.obj (uniRand N) limit) st n) f body (startWorld D ups ops t)))) =
      avg N L (fun t => listValue (fun x => φ x.plan) F (ch'.list (flipChain (w.val N D.graph) (acc.val N D.graph) ⟨a, none⟩ n) f body t)) :=
  avg_congr N L (fun t => by
    rw [list_same (usual_flipChain h2 hne hadj hfuel hk hcol hN w acc lo hi name st ⟨a, none⟩ n) (start_stage hD hops hcut t) hp (ancestor_of_shallow hd) ⟨hc, hlab⟩ hch hch' f body,
      seenValue_seen])

section limits
variable [DecidableEq (V → Option P)] {S : Finset (V → Option P)}

/-- **C107** (ensembles, `slow_reversible_propose`) One constant serves every history of partition objects, every object with a reachable plan and the labels of the initial plan, every
recursion limit, every order of the adjacency lists and of the parts, and every length: the chance that the average of a score over the run is off its limit by `ε` or more is at most
`C / (n * ε ^ 2)`. -/
theorem C107_slow_ensemble (hD : D.graph.WF) (hcut : Key.cutEdges ∈ ups) (hk : Key.tally [col] ∈ ups) (hcol : ∀ v, tallyFromNode D [col] v ≠ ⊥) (hne : labels.Nonempty)
    (hs : FlipSetting D.graph (goodPlan D.graph (nodePop D col) labels lo hi) a S) (score : (V → Option P) → ℚ) :
    ∃ C : ℚ, 0 ≤ C ∧ ∀ (ops : List (Op V P)), (∀ op ∈ ops, op.WF) → ∀ (st : ℕ) (b : Assignment V P), ((Heap.after D ups ops).frame.view st).map (·.assignment) = some b →
      b.mapping.get? ∈ S → b.parts.keys.toFinset = labels → (Heap.after D ups ops).frame.Shallow 2 st → ∀ limit, 2 ≤ limit → ∀ N, 0 < N →
      (∀ m ∈ S, (allowedMoves D.graph m (fun _ => true)).card ∣ N) → ∀ (fuel : ℕ) (ord : SetOrder P) (adj : Dict V (List V)) (draw : ℕ → V → ℕ) (name : Option String),
      AdjDict D.graph adj → 1 + (∑ v ∈ D.graph.nodes, ((adj.get? v).getD []).length) ≤ fuel → ∀ ch : Chain (World V P Tape) ℕ,
      ch.isValid = (flipRules fuel ord adj draw col lo hi name).map (Rule.obj limit) → ∀ n f body L, 0 < f → n + 1 < body → n * f ≤ L → ∀ ε, 0 < ε →
        avg N L (fun t => seenValue (fun x => x.mapping.get?) (fun l => if ε ≤ |(l.map score).sum / l.length -
            (∑ m ∈ S, (allowedMoves D.graph m (goodPlan D.graph (nodePop D col) labels lo hi)).card * score m) /
              ∑ m ∈ S, ((allowedMoves D.graph m (goodPlan D.graph (nodePop D col) labels lo hi)).card : ℚ)| then 1 else 0)
          (seenObj (ch.list (objChain (slowReversiblePropose (uniRand N) limit) alwaysAcceptObj st (n + 1 : ℕ)) f body (startWorld D ups ops t)))) ≤ C / ((n + 1 : ℕ) * ε ^ 2) := by
  obtain ⟨C, h0, hC⟩ := C104_slow_ensemble D.graph _ a S hs score
  refine ⟨C, h0, ?_⟩
  intro ops hops st b hb hbS hlab hd limit h2 N hN hdiv fuel ord adj draw name hadj hfuel ch hch n f body L hf hbody hL ε hε
  have hst := start_stage hD hops hcut ([] : Tape)
  have hbc := hst.coherent (st := st) hb
  have hcov := hst.covers (st := st) hb
  have hcon := (contiguous_iff_whole hbc hcov hlab).2 (Bool.and_eq_true_iff.1 (hs.all_valid hbS)).1
  exact (C107_flip_mean hD hops hcut h2 hadj hfuel hk hcol hN L .slow .always hb hd hlab hne hcon _ f body ch hch ⟨flipConditions D col labels lo hi name, none, ⟨b, none⟩⟩ rfl
    (fun x => x.mapping.get?) _).le.trans (hC N hN hdiv _ (flipConditions_decide D col labels lo hi name) _ rfl b hbc hcov hbS n f body L hf hbody hL ε hε)

/-- **C107** (convergence, `slow_reversible_propose`) However small `ε` and `δ` are, every run of objects that is long enough and makes enough proposals in each step is finished with an
average of the score within `ε` of its limit, with probability at least `1 - δ`. -/
theorem C107_slow_converges (hD : D.graph.WF) (hops : ∀ op ∈ ops, op.WF) (hcut : Key.cutEdges ∈ ups) (hk : Key.tally [col] ∈ ups) (hcol : ∀ v, tallyFromNode D [col] v ≠ ⊥)
    (hp : ((Heap.after D ups ops).frame.view st).map (·.assignment) = some a) (hd : (Heap.after D ups ops).frame.Shallow 2 st) (hlab : a.parts.keys.toFinset = labels)
    (hne : labels.Nonempty) (hs : FlipSetting D.graph (goodPlan D.graph (nodePop D col) labels lo hi) a S) (score : (V → Option P) → ℚ) (ε δ : ℚ) (hε : 0 < ε) (hδ : 0 < δ) :
    ∃ n0 : ℕ, ∀ n, n0 ≤ n → ∃ f0 : ℕ, ∀ f, f0 ≤ f → ∀ limit, 2 ≤ limit → ∀ N, 0 < N → (∀ m ∈ S, (allowedMoves D.graph m (fun _ => true)).card ∣ N) →
      ∀ (fuel : ℕ) (ord : SetOrder P) (adj : Dict V (List V)) (draw : ℕ → V → ℕ) (name : Option String), AdjDict D.graph adj →
      1 + (∑ v ∈ D.graph.nodes, ((adj.get? v).getD []).length) ≤ fuel → ∀ ch : Chain (World V P Tape) ℕ,
      ch.isValid = (flipRules fuel ord adj draw col lo hi name).map (Rule.obj limit) → ∀ body L, n + 1 < body → n * f ≤ L →
        1 - δ ≤ avg N L (fun t => seenValue (fun x => x.mapping.get?) (fun l => if |(l.map score).sum / l.length -
            (∑ m ∈ S, (allowedMoves D.graph m (goodPlan D.graph (nodePop D col) labels lo hi)).card * score m) /
              ∑ m ∈ S, ((allowedMoves D.graph m (goodPlan D.graph (nodePop D col) labels lo hi)).card : ℚ)| < ε then 1 else 0)
          (seenObj (ch.list (objChain (slowReversiblePropose (uniRand N) limit) alwaysAcceptObj st (n + 1 : ℕ)) f body (startWorld D ups ops t)))) := by
  obtain ⟨n0, h0⟩ := C104_slow_converges D.graph _ a S hs score ε δ hε hδ
  refine ⟨n0, fun n hn => ?_⟩
  obtain ⟨f0, h1⟩ := h0 n hn
  refine ⟨f0, ?_⟩
  intro f hf limit h2 N hN hdiv fuel ord adj draw name hadj hfuel ch hch body L hbody hL
  have hcon := (contiguous_iff_whole hs.coherent hs.covers hlab).2 (Bool.and_eq_true_iff.1 hs.valid).1
  exact (h1 f hf N hN hdiv _ (flipConditions_decide D col labels lo hi name) ⟨_, none, ⟨a, none⟩⟩ rfl body L hbody hL).trans
    (C107_flip_mean hD hops hcut h2 hadj hfuel hk hcol hN L .slow .always hp hd hlab hne hcon _ f body ch hch ⟨flipConditions D col labels lo hi name, none, ⟨a, none⟩⟩ rfl
    (fun x => x.mapping.get?) _).ge

/-- **C107** (ensembles, `slow_reversible_propose_bi`) -/
theorem C107_bi_ensemble (hD : D.graph.WF) (hcut : Key.cutEdges ∈ ups) (hk : Key.tally [col] ∈ ups) (hcol : ∀ v, tallyFromNode D [col] v ≠ ⊥) (hne : labels.Nonempty)
    (hs : FlipSetting D.graph (goodPlan D.graph (nodePop D col) labels lo hi) a S) (han : ∀ m ∈ S, Anchored D.graph m) (score : (V → Option P) → ℚ) :
    ∃ C : ℚ, 0 ≤ C ∧ ∀ (ops : List (Op V P)), (∀ op ∈ ops, op.WF) → ∀ (st : ℕ) (b : Assignment V P), ((Heap.after D ups ops).frame.view st).map (·.assignment) = some b →
      b.mapping.get? ∈ S → b.parts.keys.toFinset = labels → (Heap.after D ups ops).frame.Shallow 2 st → ∀ limit, 2 ≤ limit → ∀ N, 0 < N →
      (∀ m ∈ S, Divides N D.graph m) → ∀ (fuel : ℕ) (ord : SetOrder P) (adj : Dict V (List V)) (draw : ℕ → V → ℕ) (name : Option String),
      AdjDict D.graph adj → 1 + (∑ v ∈ D.graph.nodes, ((adj.get? v).getD []).length) ≤ fuel → ∀ ch : Chain (World V P Tape) ℕ,
      ch.isValid = (flipRules fuel ord adj draw col lo hi name).map (Rule.obj limit) → ∀ n f body L, 0 < f → n + 1 < body → n * (f * 2) ≤ L → ∀ ε, 0 < ε →
        avg N L (fun t => seenValue (fun x => x.mapping.get?) (fun l => if ε ≤ |(l.map score).sum / l.length -
            (∑ m ∈ S, (∑ x ∈ allowedMoves D.graph m (goodPlan D.graph (nodePop D col) labels lo hi), 1 / ((otherParts D.graph m x.1).card : ℚ)) * score m) /
              ∑ m ∈ S, ∑ x ∈ allowedMoves D.graph m (goodPlan D.graph (nodePop D col) labels lo hi), 1 / ((otherParts D.graph m x.1).card : ℚ)| then 1 else 0)
          (seenObj (ch.list (objChain (slowReversibleProposeBi (uniRand N) limit) alwaysAcceptObj st (n + 1 : ℕ)) f body (startWorld D ups ops t)))) ≤ C / ((n + 1 : ℕ) * ε ^ 2) := by
  obtain ⟨C, h0, hC⟩ := C104_bi_ensemble D.graph _ a S hs han score
  refine ⟨C, h0, ?_⟩
  intro ops hops st b hb hbS hlab hd limit h2 N hN hdiv fuel ord adj draw name hadj hfuel ch hch n f body L hf hbody hL ε hε
  have hst := start_stage hD hops hcut ([] : Tape)
  have hbc := hst.coherent (st := st) hb
  have hcov := hst.covers (st := st) hb
  have hcon := (contiguous_iff_whole hbc hcov hlab).2 (Bool.and_eq_true_iff.1 (hs.all_valid hbS)).1
  exact (C107_flip_mean hD hops hcut h2 hadj hfuel hk hcol hN L .slowBi .always hb hd hlab hne hcon _ f body ch hch ⟨flipConditions D col labels lo hi name, none, ⟨b, none⟩⟩ rfl
    (fun x => x.mapping.get?) _).le.trans (hC N hN hdiv _ (flipConditions_decide D col labels lo hi name) _ rfl b hbc hcov hbS n f body L hf hbody hL ε hε)

/-- **C107** (convergence, `slow_reversible_propose_bi`) -/
theorem C107_bi_converges (hD : D.graph.WF) (hops : ∀ op ∈ ops, op.WF) (hcut : Key.cutEdges ∈ ups) (hk : Key.tally [col] ∈ ups) (hcol : ∀ v, tallyFromNode D [col] v ≠ ⊥)
    (hp : ((Heap.after D ups ops).frame.view st).map (·.assignment) = some a) (hd : (Heap.after D ups ops).frame.Shallow 2 st) (hlab : a.parts.keys.toFinset = labels)
    (hne : labels.Nonempty) (hs : FlipSetting D.graph (goodPlan D.graph (nodePop D col) labels lo hi) a S) (han : ∀ m ∈ S, Anchored D.graph m) (score : (V → Option P) → ℚ) (ε δ : ℚ)
    (hε : 0 < ε) (hδ : 0 < δ) :
    ∃ n0 : ℕ, ∀ n, n0 ≤ n → ∃ f0 : ℕ, ∀ f, f0 ≤ f → ∀ limit, 2 ≤ limit → ∀ N, 0 < N → (∀ m ∈ S, Divides N D.graph m) →
      ∀ (fuel : ℕ) (ord : SetOrder P) (adj : Dict V (List V)) (draw : ℕ → V → ℕ) (name : Option String), AdjDict D.graph adj →
      1 + (∑ v ∈ D.graph.nodes, ((adj.get? v).getD []).length) ≤ fuel → ∀ ch : Chain (World V P Tape) ℕ,
      ch.isValid = (flipRules fuel ord adj draw col lo hi name).map (Rule.obj limit) → ∀ body L, n + 1 < body → n * (f * 2) ≤ L →
        1 - δ ≤ avg N L (fun t => seenValue (fun x => x.mapping.get?) (fun l => if |(l.map score).sum / l.length -
            (∑ m ∈ S, (∑ x ∈ allowedMoves D.graph m (goodPlan D.graph (nodePop D col) labels lo hi), 1 / ((otherParts D.graph m x.1).card : ℚ)) * score m) /
              ∑ m ∈ S, ∑ x ∈ allowedMoves D.graph m (goodPlan D.graph (nodePop D col) labels lo hi), 1 / ((otherParts D.graph m x.1).card : ℚ)| < ε then 1 else 0)
          (seenObj (ch.list (objChain (slowReversibleProposeBi (uniRand N) limit) alwaysAcceptObj st (n + 1 : ℕ)) f body (startWorld D ups ops t)))) := by
  obtain ⟨n0, h0⟩ := C104_bi_converges D.graph _ a S hs han score ε δ hε hδ
  refine ⟨n0, fun n hn => ?_⟩
  obtain ⟨f0, h1⟩ := h0 n hn
  refine ⟨f0, ?_⟩
  intro f hf limit h2 N hN hdiv fuel ord adj draw name hadj hfuel ch hch body L hbody hL
  have hcon := (contiguous_iff_whole hs.coherent hs.covers hlab).2 (Bool.and_eq_true_iff.1 hs.valid).1
  exact (h1 f hf N hN hdiv _ (flipConditions_decide D col labels lo hi name) ⟨_, none, ⟨a, none⟩⟩ rfl body L hbody hL).trans
    (C107_flip_mean hD hops hcut h2 hadj hfuel hk hcol hN L .slowBi .always hp hd hlab hne hcon _ f body ch hch ⟨flipConditions D col labels lo hi name, none, ⟨a, none⟩⟩ rfl
    (fun x => x.mapping.get?) _).ge

/-- **C107** (when the limits apply) Every plan that meets the two constraints and has at least one allowed move has a finite class of reachable plans as the theorems above ask, and
there are tapes as they ask. -/
theorem C107_applies (hD : D.graph.WF) (hc : a.Coherent) (hcov : a.Covers D.graph.nodes) (hlab : a.parts.keys.toFinset = labels)
    (hv : goodPlan D.graph (nodePop D col) labels lo hi a.mapping.get? = true)
    (hmv : (allowedPairs D.graph a.mapping.get? (goodPlan D.graph (nodePop D col) labels lo hi)).Nonempty) :
    ∃ S : Finset (V → Option P), FlipSetting D.graph (goodPlan D.graph (nodePop D col) labels lo hi) a S ∧ ∃ N, 0 < N ∧ ∀ m ∈ S, (allowedMoves D.graph m (fun _ => true)).card ∣ N := by
  refine C104_applies D.graph _ a hD hc hcov hv hmv labels (fun v hv => ?_) (fun m hm => ?_)
  · obtain ⟨p, hp⟩ := Dict.mem_keys_iff.1 ((hcov v).2 hv)
    exact ⟨p, hlab ▸ List.mem_toFinset.2 (hc.complete v p hp), hp⟩
  · have := (Bool.and_eq_true_iff.1 hm).1
    unfold wholeDistricts at this
    classical
    exact of_decide_eq_true this

end limits

end ensembles

/-! ### A concrete chain of objects -/

/-- both districts of the ring are contiguous and have one to three nodes -/
def ringGood (m : Fin 4 → Option (Fin 2)) : Bool :=
  decide (∀ p : Fin 2, nxIsConnected (ringGraph.subgraph (Finset.univ.filter (fun v => m v = some p))) = .ok true) &&
    decide (∀ p : Fin 2, 1 ≤ (Finset.univ.filter (fun v => m v = some p)).card ∧ (Finset.univ.filter (fun v => m v = some p)).card ≤ 3)

theorem ringGood_eq : goodPlan ringGraph (nodePop ringData "pop") Finset.univ 1 3 = ringGood := by
  classical
  have hwf : ringGraph.WF := ⟨by decide, by decide, by decide⟩
  funext m
  unfold goodPlan ringGood
  congr 1
  · rw [Bool.eq_iff_iff, wholeDistricts_iff, decide_eq_true_iff]
    refine ⟨fun h p => ?_, fun h p _ => ?_⟩
    · rw [nxIsConnected_true (hwf.subgraph _)]
      exact (connectedOn_subgraph (Finset.subset_univ _)).2 (h p (Finset.mem_univ p))
    · have := h p
      rw [nxIsConnected_true (hwf.subgraph _)] at this
      exact (connectedOn_subgraph (Finset.subset_univ _)).1 this
  · rw [Bool.eq_iff_iff, popsWithin_iff, decide_eq_true_iff]
    rw [ring_nodePop]
    refine forall_congr' (fun p => ?_)
    rw [Finset.sum_const, nsmul_eq_mul, mul_one, show ringGraph.nodes = Finset.univ from rfl]
    refine ⟨fun h => ?_, fun h _ => ?_⟩
    · have := h (Finset.mem_univ p)
      exact ⟨by exact_mod_cast this.1, by exact_mod_cast this.2⟩
    · exact ⟨by exact_mod_cast h.1, by exact_mod_cast h.2⟩

/-- the plans after at most `k` allowed moves on the ring -/
def ringWithin (m : Fin 4 → Option (Fin 2)) : ℕ → Finset (Fin 4 → Option (Fin 2))
  | 0 => {m}
  | k + 1 => ringWithin m k ∪ (ringWithin m k).biUnion (fun x => (allowedPairs ringGraph x ringGood).image (fun y => moved x y.1 (x y.2)))

theorem ringWithin_reach (m : Fin 4 → Option (Fin 2)) (k : ℕ) : ∀ x ∈ ringWithin m k, FlipReach ringGraph ringGood m x := by
  induction k with
  | zero =>
    intro x hx
    rw [ringWithin, Finset.mem_singleton] at hx
    subst hx
    exact .refl
  | succ k ih =>
    intro x hx
    rw [ringWithin, Finset.mem_union] at hx
    rcases hx with hx | hx
    · exact ih x hx
    · obtain ⟨y, hy, hx⟩ := Finset.mem_biUnion.1 hx
      obtain ⟨z, hz, rfl⟩ := Finset.mem_image.1 hx
      exact (ih y hy).tail ⟨z, hz, rfl⟩

/-- the twelve contiguous plans of the ring with two districts -/
def ringPlans : Finset (Fin 4 → Option (Fin 2)) := ringWithin ringB.mapping.get? 4

theorem ring_flipSetting : FlipSetting ringGraph ringGood ringB ringPlans where
  wf := ⟨by decide, by decide, by decide⟩
  coherent := ring_coherent.2
  covers := by unfold Assignment.Covers; decide
  valid := by decide +kernel
  mem := by
    have hclosed : ∀ m ∈ ringPlans, ∀ x ∈ allowedPairs ringGraph m ringGood, moved m x.1 (m x.2) ∈ ringPlans := by decide +kernel
    refine fun m => ⟨ringWithin_reach _ _ m, fun h => ?_⟩
    induction h with
    | refl => decide +kernel
    | tail _ h ih =>
      obtain ⟨x, hx, rfl⟩ := h
      exact hclosed _ ih x hx
  back := by decide +kernel
  moves := by decide +kernel

theorem ring_col : ∀ v, tallyFromNode ringData ["pop"] v ≠ ⊥ := fun _ => by show (([((1 : ℚ) : Num)] : List Num).sum) ≠ ⊥; simp

/-- the hypotheses of `C107_flips` and `C107_flip_mean` -/
example : ringData.graph.WF ∧ (∀ op ∈ ringOps, op.WF) ∧ Key.cutEdges ∈ ringUps ∧ ((Heap.after ringData ringUps ringOps).frame.view 1).map (·.assignment) = some ringB ∧
    (Heap.after ringData ringUps ringOps).frame.Shallow 2 1 ∧ AdjDict ringGraph (toDictOfLists ringGraph) ∧
    1 + (∑ v ∈ ringGraph.nodes, (((toDictOfLists ringGraph).get? v).getD []).length) ≤ 9 ∧ ringB.parts.keys.toFinset = Finset.univ ∧ ContiguousPlan ringGraph ringB ∧
    (Rule.singleFlip 9 ringOrder (toDictOfLists ringGraph) (fun _ _ => 0) : Rule (Fin 4) (Fin 2)).FitsFlips ringData ringUps :=
  ⟨ring_positive.1, ringOps_wf, by decide, ringOps_view.1, ring_shallow, toDictOfLists_adj ring_positive.1, by decide +kernel, by decide, ring_contiguous.2,
    toDictOfLists_adj ring_positive.1, by decide +kernel⟩

/-- In long runs on the objects of the ring, the first district has two nodes on average. -/
example (ε δ : ℚ) (hε : 0 < ε) (hδ : 0 < δ) :
    ∃ n0 : ℕ, ∀ n, n0 ≤ n → ∃ f0 : ℕ, ∀ f, f0 ≤ f → ∀ limit, 2 ≤ limit → ∀ (draw : ℕ → Fin 4 → ℕ) (ch : Chain (World (Fin 4) (Fin 2) Tape) ℕ),
      ch.isValid = (flipRules 9 ringOrder (toDictOfLists ringGraph) draw "pop" 1 3 none).map (Rule.obj limit) →
        1 - δ ≤ avg 12 (n * f) (fun t => seenValue (fun x => x.mapping.get?) (fun l => if |(l.map (fun m => (districtSize ringGraph m 0 : ℚ))).sum / l.length - 2| < ε then 1 else 0)
          (seenObj (ch.list (objChain (slowReversiblePropose (uniRand 12) limit) alwaysAcceptObj 1 (n + 1 : ℕ)) f (n + 2) (startWorld ringData ringUps ringOps t)))) := by
  obtain ⟨n0, h⟩ := C107_slow_converges (D := ringData) (ups := ringUps) (ops := ringOps) (st := 1) (a := ringB) (labels := Finset.univ) (col := "pop") (lo := 1) (hi := 3)
    (S := ringPlans) ring_positive.1 ringOps_wf (by decide) (by decide) ring_col ringOps_view.1 ring_shallow (by decide) Finset.univ_nonempty
    (by rw [show ringData.graph = ringGraph from rfl, ringGood_eq]; exact ring_flipSetting) (fun m => districtSize ringGraph m 0) ε δ hε hδ
  have e : (∑ m ∈ ringPlans, ((allowedMoves ringGraph m ringGood).card : ℚ) * districtSize ringGraph m 0) /
      ∑ m ∈ ringPlans, ((allowedMoves ringGraph m ringGood).card : ℚ) = 2 := by decide +kernel
  rw [show ringData.graph = ringGraph from rfl, ringGood_eq, e] at h
  refine ⟨n0, fun n hn => ?_⟩
  obtain ⟨f0, hf0⟩ := h n hn
  exact ⟨f0, fun f hf limit h2 draw ch hch => hf0 f hf limit h2 12 (by decide) (by decide +kernel) 9 ringOrder _ draw none (toDictOfLists_adj ring_positive.1) (by decide +kernel) ch hch
    (n + 2) (n * f) (by omega) le_rfl⟩

end GC

import Verif.Lemmas.CutLaw
import Verif.Props.RecSupport
import Verif.Props.KruskalRecom
import Verif.Props.Seed

/-!
# The law of `recursive_tree_part` (C102)

The probability with which `recursive_tree_part` returns a given plan: a product with one factor for each cut.
-/

set_option linter.unusedSectionVars false
set_option autoImplicit false

namespace GC

open Finset

variable {V P : Type} [LinearOrder V] [LinearOrder P]

/-! ### A bound for the random numbers -/

theorem Draws.bind_reach {α β : Type} {k j : ℕ} {m : M Tape α} (h : Draws k m) {f : α → M Tape β} (hf : ∀ t t' a, m t = (.ok a, t') → Draws j (f a)) :
    Draws (k + j) (m >>= f) := by
  induction h with
  | @done k m r h =>
    cases r with
    | ok a =>
      have : m >>= f = f a := by
        funext t
        show M.bind m f t = _
        unfold M.bind
        rw [h]
      rw [this]
      exact (hf [] [] a (h [])).mono (by omega)
    | error e =>
      refine .done (.error e) (fun t => ?_)
      show M.bind m f t = _
      unfold M.bind
      rw [h]
  | @draw k m g h hg ih =>
    have : k + 1 + j = (k + j) + 1 := by omega
    rw [this]
    refine .draw (fun i => g i >>= f) (fun t => ?_) (fun i => ih i (fun t t' a hh => hf (i :: t) t' a (by rw [h]; exact hh)))
    show M.bind m f t = M.bind (g _) f _
    unfold M.bind
    rw [h]

section bound
variable {N d0 d m : ℕ} {cfg : BipConfig V Tape} {cutChoice : PopGraph V → List (Cut V) → M Tape (Cut V)} {G : Graph V} {pop : V → ℚ} {target eps : ℚ}

theorem draws_bipLoop (hm : cfg.maxAttempts = some m) (hs : Draws d0 (cfg.spanFn G))
    (hret : ∀ w, ∃ t w', cfg.spanFn G w = (.ok t, w') ∧ t.graph.nodes = G.nodes)
    (hb : ∀ x : PopGraph V, x.graph.nodes = G.nodes → Draws d (cfg.balanceFn x)) (hc : ∀ x l, Draws 1 (cutChoice x l)) :
    ∀ (f : ℕ) (t : WTree V), t.graph.nodes = G.nodes → ∀ k a : ℕ, Draws ((m - a) * (d0 + d) + 1) (bipLoop cfg cutChoice false G pop target eps f t k a) := by
  intro f
  induction f with
  | zero => intro t ht k a; exact .done (.error .outOfFuel) (fun _ => rfl)
  | succ f ih =>
    intro t ht k a
    by_cases ha : a < m
    · have hatt : ∀ t : WTree V, t.graph.nodes = G.nodes → ∀ k, Draws (d + ((m - (a + 1)) * (d0 + d) + 1)) (attemptOn cfg cutChoice G pop target eps f k a t) := by
        intro t ht k
        unfold attemptOn
        refine (hb (PopGraph.init G.nodes t.graph t.weight pop target eps) ht).bind (fun cuts => ?_)
        split_ifs
        · refine Draws.mono ((hc _ _).bind (j := 0) (fun c => draws_pure 0 _)) (by omega)
        · exact ih t ht _ _
      have hstep : (m - a) * (d0 + d) = (m - (a + 1)) * (d0 + d) + (d0 + d) := by
        obtain ⟨b, hb'⟩ : ∃ b, m - a = b + 1 := ⟨m - a - 1, by omega⟩
        have : m - (a + 1) = b := by omega
        rw [hb', this]
        ring
      by_cases hk : k = cfg.nodeRepeats
      · subst hk
        rw [bipLoop_fresh hm ha]
        refine (hs.bind_reach (j := d + ((m - (a + 1)) * (d0 + d) + 1)) (fun w w' t' h => ?_)).mono (by omega)
        obtain ⟨t1, w1, h1, h2⟩ := hret w
        rw [h] at h1
        cases h1
        exact hatt t' h2 0
      · rw [bipLoop_same hm ha hk]
        exact (hatt t ht k).mono (by omega)
    · rw [bipLoop_over hm (by omega)]
      exact .done (.error .runtimeError) (fun _ => rfl)

theorem draws_bipartition (hm : cfg.maxAttempts = some m) (hs : Draws d0 (cfg.spanFn G))
    (hret : ∀ w, ∃ t w', cfg.spanFn G w = (.ok t, w') ∧ t.graph.nodes = G.nodes)
    (hb : ∀ x : PopGraph V, x.graph.nodes = G.nodes → Draws d (cfg.balanceFn x)) (hc : ∀ x l, Draws 1 (cutChoice x l)) (f : ℕ) :
    Draws (d0 + (m * (d0 + d) + 1)) (bipartitionTree cfg cutChoice false f none G pop target eps) := by
  unfold bipartitionTree
  refine hs.bind_reach (fun w w' t h => ?_)
  obtain ⟨t1, w1, h1, h2⟩ := hret w
  rw [h] at h1
  cases h1
  exact draws_bipLoop hm hs hret hb hc f t h2 0 0

end bound

/-- the random numbers needed for one cut -/
def cutDraws (d0 m : ℕ) (G : Graph V) : ℕ := d0 + (m * (d0 + (1 + 2 * G.nodes.card)) + 1)

/-- the cut made by `bipartition_tree` (gerrychain/tree.py:581-718) with the default balance function and cut choice -/
noncomputable def oneCut (N r m : ℕ) (span : Graph V → M Tape (WTree V)) (pop : V → ℚ) (o : Bool) (target eps : ℚ) (H : Graph V) : M Tape (Finset V) :=
  bipartitionTree ⟨span, memoBalance (uniRand N) o, r, some m⟩ (fun _ => (uniRand N).choice) false (m + 1) none H pop target eps

section law
variable {N r m d0 : ℕ} {G : Graph V} {pop : V → ℚ} {target eps : ℚ} {span : Graph V → M Tape (WTree V)} {μ : Finset V → Finset (V × V) → ℚ}

theorem spanMethod_eq (H : Graph V) (t e : ℚ) (o : Bool) :
    spanMethod N r m span pop H t e o = oneCut N r m span pop o t e H >>= fun A => pure (some A) := rfl

theorem draws_oneCut (hl : TreeLaw N d0 G span μ) {R : Finset V} (hR : R ⊆ G.nodes) (hconn : ConnectedOn G R) (o : Bool) :
    Draws (cutDraws d0 m G) (oneCut N r m span pop o target eps (G.subgraph R)) := by
  have hn := subgraph_nodes hR
  have hlaw := hl.on R hR hconn
  unfold oneCut
  refine Draws.mono (draws_bipartition (d := 1 + 2 * R.card) rfl hlaw.draws ?_ ?_ (fun _ _ => draws_choice N _) _) ?_
  · intro w
    obtain ⟨t, w', h1, h2, -⟩ := hlaw.returns w
    exact ⟨t, w', h1, by rw [h2, hn]⟩
  · intro x hx
    have := draws_memoization N (2 * x.graph.nodes.card) x o
    rw [hx, hn] at this
    show Draws _ (memoBalance (uniRand N) o x)
    unfold memoBalance
    rw [hx, hn]
    exact this
  · unfold cutDraws
    have := Finset.card_le_card hR
    gcongr

end law

/-! ### Plans -/

/-- the program returned this plan of the nodes `R` -/
def ReturnsPlan (R : Finset V) (g : V → Option P) : Py (Dict V P) → Prop
  | .ok f => ∀ v ∈ R, f.get? v = g v
  | .error _ => False

instance (R : Finset V) (g : V → Option P) (x : Py (Dict V P)) : Decidable (ReturnsPlan R g x) := by
  cases x <;> unfold ReturnsPlan <;> infer_instance

/-- The probability of the plan `g` of the nodes `R` with these labels, when the districts so far have the error `debt`: the first district is cut off with
the probability `partLaw` from the nodes that are left, within the tolerance and such that the error stays within the tolerance of one district; the last two
districts come from one cut. -/
noncomputable def planLaw (r m : ℕ) (G : Graph V) (pop : V → ℚ) (target eps : ℚ) (μ : Finset V → Finset (V × V) → ℚ) (g : V → Option P) :
    List P → Finset V → ℚ → ℚ
  | [], _, _ => 0
  | [_], _, _ => 0
  | [p, q], R, _ => if R = cellOf R g p ∪ cellOf R g q then partLaw false (PopOk target eps) r m G pop μ (cellOf R g p) (cellOf R g q) else 0
  | p :: q :: s :: rest, R, debt =>
    partLaw true (fun x => PopOk target eps x ∧ |debt + (x - target)| ≤ eps * target) r m G pop μ (cellOf R g p) (R \ cellOf R g p) *
      planLaw r m G pop target eps μ g (q :: s :: rest) (R \ cellOf R g p) (debt + (popOf pop (cellOf R g p) - target))

section law
variable {N r m d0 : ℕ} {G : Graph V} {pop : V → ℚ} {target eps : ℚ} {span : Graph V → M Tape (WTree V)} {μ : Finset V → Finset (V × V) → ℚ}

theorem near_funext : (Near target eps) = PopOk target eps := by
  funext x
  exact propext near_iff_popOk

/-- the cut is a subset with connected sides and the populations asked for -/
theorem oneCut_good (hN : 0 < N) (hspan : SpanOk span) (hG : G.WF) {R : Finset V} (hR : R ⊆ G.nodes) (hconn : ConnectedOn G R) {o : Bool} {w w' : Tape} {A : Finset V}
    (h : oneCut N r m span pop o target eps (G.subgraph R) w = (.ok A, w')) :
    A ⊆ R ∧ ConnectedOn G (R \ A) ∧ Near target eps (popOf pop A) ∧ (o = false → Near target eps (popOf pop (R \ A))) := by
  obtain ⟨g1, g2, g3⟩ := bipMethod_good (uniRand N) (uniRand_valid hN) span hspan r (some m) (fun _ _ => (none : Option Unit)) none false (m + 1) pop
  have h1 : spanMethod N r m span pop (G.subgraph R) target eps o w = (.ok (some A), w') := by
    rw [spanMethod_eq, M.bind_ok h]
    rfl
  have h2 := g3 G hG R target eps o w A w' hR hconn h1
  have h3 := g2 (G.subgraph R) target eps o w A w' (hG.subgraph R) ((connectedOn_subgraph hR).2 hconn) h1
  rw [subgraph_nodes hR] at h3
  exact ⟨h2.1, h2.2, h3.1, h3.2⟩

theorem cut_law (hG : G.WF) (hN : 0 < N) (hdiv : (2 ^ G.edges.card).factorial ∣ N) (hr : 0 < r) (hl : TreeLaw N d0 G span μ) {o : Bool}
    {A B : Finset V} (hAB : Disjoint A B) (hU : A ∪ B ⊆ G.nodes) (hconn : ConnectedOn G (A ∪ B)) (L : ℕ) (hL : cutDraws d0 m G ≤ L) :
    avg N L (fun w => isSet A (oneCut N r m span pop o target eps (G.subgraph (A ∪ B)) w).1) = partLaw o (Near target eps) r m G pop μ A B := by
  refine bipartition_law hG hN hdiv hr hl hAB hU hconn L (le_trans ?_ hL)
  unfold cutDraws
  have h1 := Finset.card_le_card hU
  have h2 : m * (d0 + (1 + 2 * (A ∪ B).card)) ≤ m * (d0 + (1 + 2 * G.nodes.card)) := by gcongr
  omega

/-- the last two districts -/
theorem lastTwo_law (hG : G.WF) (hN : 0 < N) (hdiv : (2 ^ G.edges.card).factorial ∣ N) (hr : 0 < r) (hl : TreeLaw N d0 G span μ) (hspan : SpanOk span)
    {p q : P} (hpq : p ≠ q) {R : Finset V} (hR : R ⊆ G.nodes) (hconn : ConnectedOn G R) (flips : Dict V P) (g : V → Option P) (L : ℕ) (hL : cutDraws d0 m G ≤ L) :
    prob N L (lastTwo (spanMethod N r m span pop) G pop target eps p q flips R) (ReturnsPlan R g) =
      if R = cellOf R g p ∪ cellOf R g q then partLaw false (PopOk target eps) r m G pop μ (cellOf R g p) (cellOf R g q) else 0 := by
  have hdisj : Disjoint (cellOf R g p) (cellOf R g q) := by
    rw [Finset.disjoint_left]
    intro v h1 h2
    exact hpq (Option.some.inj ((Finset.mem_filter.1 h1).2.symm.trans (Finset.mem_filter.1 h2).2))
  have hpoint : ∀ w, (if ReturnsPlan R g (lastTwo (spanMethod N r m span pop) G pop target eps p q flips R w).1 then (1 : ℚ) else 0) =
      if R = cellOf R g p ∪ cellOf R g q then isSet (cellOf R g p) (oneCut N r m span pop false target eps (G.subgraph R) w).1 else 0 := by
    intro w
    have hprog : lastTwo (spanMethod N r m span pop) G pop target eps p q flips R w = (oneCut N r m span pop false target eps (G.subgraph R) >>= fun A => do
        let x ← M.lift (assignPart pop target eps flips A p)
        let y ← M.lift (assignPart pop target eps x.1 (R \ A) q)
        pure y.1 : M Tape (Dict V P)) w := by
      unfold lastTwo
      rw [spanMethod_eq, M.bind_assoc']
      rfl
    rw [hprog]
    rcases hc : oneCut N r m span pop false target eps (G.subgraph R) w with ⟨e | A, w'⟩
    · rw [M.bind_error hc]
      simp [ReturnsPlan, isSet]
    · obtain ⟨hA, -, n1, n2⟩ := oneCut_good hN hspan hG hR hconn hc
      rw [M.bind_ok hc]
      rcases assignPart_cases pop target eps flips A p with ⟨f1, k1, -, k3⟩ | ⟨-, k⟩
      swap
      · exact absurd (near_iff_popOk.1 n1) k
      rcases assignPart_cases pop target eps f1 (R \ A) q with ⟨f2, j1, -, j3⟩ | ⟨-, k⟩
      swap
      · exact absurd (near_iff_popOk.1 (n2 rfl)) k
      rw [k1]
      show (if ReturnsPlan R g ((M.lift (assignPart pop target eps f1 (R \ A) q) >>= fun y => pure y.1 : M Tape (Dict V P)) w').1 then (1 : ℚ) else 0) = _
      rw [j1]
      show (if ∀ v ∈ R, f2.get? v = g v then (1 : ℚ) else 0) = if R = cellOf R g p ∪ cellOf R g q then (if A = cellOf R g p then 1 else 0) else 0
      rw [← ite_and]
      refine if_congr ?_ rfl rfl
      have hget : ∀ v ∈ R, f2.get? v = if v ∈ A then some p else some q := by
        intro v hv
        rw [j3, k3]
        by_cases hvA : v ∈ A
        · simp [hvA]
        · simp [hvA, hv]
      constructor
      · intro h
        refine ⟨?_, ?_⟩
        · ext v
          simp only [cellOf, Finset.mem_union, Finset.mem_filter]
          constructor
          · intro hv
            rw [← h v hv, hget v hv]
            by_cases hvA : v ∈ A <;> simp [hvA, hv]
          · rintro (⟨h1, -⟩ | ⟨h1, -⟩) <;> exact h1
        · ext v
          simp only [cellOf, Finset.mem_filter]
          constructor
          · intro hv
            refine ⟨hA hv, ?_⟩
            rw [← h v (hA hv), hget v (hA hv), if_pos hv]
          · rintro ⟨hv, hgv⟩
            by_contra hvA
            rw [← h v hv, hget v hv, if_neg hvA] at hgv
            exact hpq (Option.some.inj hgv).symm
      · rintro ⟨h1, h2⟩ v hv
        rw [hget v hv]
        by_cases hvA : v ∈ A
        · rw [if_pos hvA]
          rw [h2] at hvA
          exact (Finset.mem_filter.1 hvA).2.symm
        · rw [if_neg hvA]
          rw [h2] at hvA
          rw [h1] at hv
          exact (Finset.mem_filter.1 ((Finset.mem_union.1 hv).resolve_left hvA)).2.symm
  unfold prob
  rw [avg_congr N L hpoint]
  by_cases hU : R = cellOf R g p ∪ cellOf R g q
  · simp only [if_pos hU]
    have := cut_law (m := m) (r := r) (pop := pop) (target := target) (eps := eps) (o := false) hG hN hdiv hr hl hdisj (by rw [← hU]; exact hR)
      (by rw [← hU]; exact hconn) L hL
    rw [← hU, near_funext] at this
    exact this
  · simp only [if_neg hU]
    exact avg_const hN L 0

/-- **The law of the loop.** -/
theorem recursiveLoop_law (hG : G.WF) (hN : 0 < N) (hdiv : (2 ^ G.edges.card).factorial ∣ N) (hr : 0 < r) (hl : TreeLaw N d0 G span μ) (hspan : SpanOk span)
    (ht : 0 < target) (he : 0 ≤ eps) (he1 : eps < 1) (g : V → Option P) : ∀ (parts : List P) (R : Finset V) (debt : ℚ) (flips : Dict V P), parts.Nodup →
      R ⊆ G.nodes → ConnectedOn G R → |debt| ≤ eps * target → ∀ L, parts.length * cutDraws d0 m G ≤ L →
      prob N L (recursiveLoop (spanMethod N r m span pop) G pop target eps parts flips R debt) (ReturnsPlan R g) = planLaw r m G pop target eps μ g parts R debt
  | [], R, debt, flips, _, _, _, _, L, _ => by
    unfold recursiveLoop prob planLaw
    exact (avg_congr N L (fun w => if_neg (fun h => h))).trans (avg_const hN L 0)
  | [_], R, debt, flips, _, _, _, _, L, _ => by
    unfold recursiveLoop prob planLaw
    exact (avg_congr N L (fun w => if_neg (fun h => h))).trans (avg_const hN L 0)
  | [p, q], R, debt, flips, hnd, hR, hc, _, L, hL => by
    unfold recursiveLoop planLaw
    refine lastTwo_law hG hN hdiv hr hl hspan (by simpa using hnd) hR hc flips g L ?_
    simp only [List.length_cons, List.length_nil] at hL
    omega
  | p :: q :: s :: rest, R, debt, flips, hnd, hR, hc, hd, L, hL => by
    classical
    obtain ⟨nt, ne, hdt, hw⟩ := debtTarget_iff ht he he1 hd
    have hok : (fun x => PopOk target eps x ∧ |debt + (x - target)| ≤ eps * target) = Near nt ne := by
      funext x
      exact propext (hw x).symm
    set A := cellOf R g p with hA
    have hAR : A ⊆ R := Finset.filter_subset _ _
    let K : Finset V → M Tape (Dict V P) := fun S => do
      let x ← M.lift (assignPart pop target eps flips S p)
      recursiveLoop (spanMethod N r m span pop) G pop target eps (q :: s :: rest) x.1 (R \ S) (debt + (x.2 - target))
    have hprog : recursiveLoop (spanMethod N r m span pop) G pop target eps (p :: q :: s :: rest) flips R debt =
        oneCut N r m span pop true nt ne (G.subgraph R) >>= K := by
      rw [recursiveLoop_cons, hdt]
      show (spanMethod N r m span pop (G.subgraph R) nt ne true >>= _ : M Tape (Dict V P)) = _
      rw [spanMethod_eq, M.bind_assoc']
      rfl
    have hsub := (bipMethod_good (uniRand N) (uniRand_valid hN) span hspan r (some m) (fun _ _ => (none : Option Unit)) none false (m + 1) pop).2.2 G hG
    have hK : ∀ S, S ⊆ R → ConnectedOn G (R \ S) → Near nt ne (popOf pop S) → ∀ L', (q :: s :: rest).length * cutDraws d0 m G ≤ L' →
        avg N L' (fun w => if ReturnsPlan R g (K S w).1 then (1 : ℚ) else 0) =
          if S = A then planLaw r m G pop target eps μ g (q :: s :: rest) (R \ A) (debt + (popOf pop A - target)) else 0 := by
      intro S hS hcS hn L' hL'
      obtain ⟨hp, hdebt⟩ := (hw _).1 hn
      rcases assignPart_cases pop target eps flips S p with ⟨f1, k1, -, k3⟩ | ⟨-, k⟩
      swap
      · exact absurd hp k
      have hKS : ∀ w, K S w = recursiveLoop (spanMethod N r m span pop) G pop target eps (q :: s :: rest) f1 (R \ S) (debt + (popOf pop S - target)) w := by
        intro w
        show (M.lift (assignPart pop target eps flips S p) >>= _ : M Tape (Dict V P)) w = _
        rw [k1]
        rfl
      have hpoint : ∀ w, (if ReturnsPlan R g (K S w).1 then (1 : ℚ) else 0) = if S = A then (if ReturnsPlan (R \ A) g (K S w).1 then 1 else 0) else 0 := by
        intro w
        rw [hKS w, ← ite_and]
        refine if_congr ?_ rfl rfl
        rcases hx : recursiveLoop (spanMethod N r m span pop) G pop target eps (q :: s :: rest) f1 (R \ S) (debt + (popOf pop S - target)) w with ⟨e | f, w'⟩
        · simp [ReturnsPlan]
        have hsp := recursiveLoop_split hsub hG _ _ _ _ _ _ _ (Finset.sdiff_subset.trans hR) hcS hx
        show (∀ v ∈ R, f.get? v = g v) ↔ S = A ∧ ∀ v ∈ R \ A, f.get? v = g v
        have hfS : ∀ v ∈ S, f.get? v = some p := by
          intro v hv
          rw [hsp.frame v (by simp [hv]), k3, if_pos hv]
        constructor
        · intro h
          refine ⟨?_, fun v hv => h v (Finset.mem_sdiff.1 hv).1⟩
          ext v
          rw [hA]
          simp only [cellOf, Finset.mem_filter]
          constructor
          · intro hv
            exact ⟨hS hv, by rw [← h v (hS hv), hfS v hv]⟩
          · rintro ⟨hv, hvp⟩
            by_contra hvS
            obtain ⟨y, hy, hvy⟩ := hsp.cover v (Finset.mem_sdiff.2 ⟨hv, hvS⟩)
            rw [h v hv, hvp] at hvy
            cases hvy
            exact (List.nodup_cons.1 hnd).1 hy
        · rintro ⟨h1, h2⟩ v hv
          by_cases hvA : v ∈ A
          · rw [hfS v (h1 ▸ hvA)]
            exact (Finset.mem_filter.1 hvA).2.symm
          · exact h2 v (Finset.mem_sdiff.2 ⟨hv, hvA⟩)
      rw [avg_congr N L' hpoint]
      by_cases hSA : S = A
      · simp only [if_pos hSA]
        rw [hSA] at hKS hcS hdebt
        have ih := recursiveLoop_law hG hN hdiv hr hl hspan ht he he1 g (q :: s :: rest) (R \ A) (debt + (popOf pop A - target)) f1
          (List.nodup_cons.1 hnd).2 (Finset.sdiff_subset.trans hR) hcS hdebt L' hL'
        rw [← ih]
        unfold prob
        exact avg_congr N L' (fun w => by rw [hSA, hKS w])
      · simp only [if_neg hSA]
        exact avg_const hN L' 0
    set c : ℚ := planLaw r m G pop target eps μ g (q :: s :: rest) (R \ A) (debt + (popOf pop A - target)) with hcdef
    let good : Finset V → Prop := fun S => S ⊆ R ∧ ConnectedOn G (R \ S) ∧ Near nt ne (popOf pop S)
    let Φ : Py (Finset V) → Tape → ℚ := fun x w => match x with
      | .ok S => if good S then (if ReturnsPlan R g (K S w).1 then 1 else 0) else 0
      | .error _ => 0
    let ψ : Py (Finset V) → ℚ := fun x => match x with
      | .ok S => if good S then (if S = A then c else 0) else 0
      | .error _ => 0
    have hgood : ∀ w w' S, oneCut N r m span pop true nt ne (G.subgraph R) w = (.ok S, w') → good S := by
      intro w w' S h
      obtain ⟨h1, h2, h3, -⟩ := oneCut_good hN hspan hG hR hc h
      exact ⟨h1, h2, h3⟩
    have e1 : ∀ w, (if ReturnsPlan R g ((oneCut N r m span pop true nt ne (G.subgraph R) >>= K) w).1 then (1 : ℚ) else 0) =
        Φ (oneCut N r m span pop true nt ne (G.subgraph R) w).1 (oneCut N r m span pop true nt ne (G.subgraph R) w).2 := by
      intro w
      rcases hx : oneCut N r m span pop true nt ne (G.subgraph R) w with ⟨e | S, w'⟩
      · rw [M.bind_error hx]
        exact if_neg (fun h => h)
      · rw [M.bind_ok hx]
        show _ = if good S then (if ReturnsPlan R g (K S w').1 then (1 : ℚ) else 0) else 0
        rw [if_pos (hgood _ _ _ hx)]
    have e2 : ∀ w, ψ (oneCut N r m span pop true nt ne (G.subgraph R) w).1 = c * isSet A (oneCut N r m span pop true nt ne (G.subgraph R) w).1 := by
      intro w
      rcases hx : oneCut N r m span pop true nt ne (G.subgraph R) w with ⟨e | S, w'⟩
      · show (0 : ℚ) = c * 0
        rw [mul_zero]
      · show (if good S then (if S = A then c else 0) else 0) = c * if S = A then 1 else 0
        rw [if_pos (hgood _ _ _ hx)]
        split_ifs <;> simp
    have hlen : (p :: q :: s :: rest).length * cutDraws d0 m G = cutDraws d0 m G + (q :: s :: rest).length * cutDraws d0 m G := by
      simp only [List.length_cons]
      ring
    unfold prob
    rw [hprog, avg_congr N L e1, avg_draws hN (draws_oneCut hl hR hc true) (Φ := Φ) (ψ := ψ) ((q :: s :: rest).length * cutDraws d0 m G) L (by omega) ?_
      (cutDraws d0 m G) (le_refl _), avg_congr N _ e2, avg_mul]
    · have hU : A ∪ (R \ A) = R := Finset.union_sdiff_of_subset hAR
      have := cut_law (m := m) (r := r) (pop := pop) (target := nt) (eps := ne) (o := true) hG hN hdiv hr hl (A := A) (B := R \ A) Finset.disjoint_sdiff
        (by rw [hU]; exact hR) (by rw [hU]; exact hc) (cutDraws d0 m G) (le_refl _)
      rw [hU] at this
      rw [this, planLaw, hok, ← hA, ← hcdef]
      ring
    · intro x L' hL'
      rcases x with e | S
      · exact avg_const hN L' 0
      · by_cases hS : good S
        · show avg N L' (fun w => if good S then (if ReturnsPlan R g (K S w).1 then 1 else 0) else 0) = if good S then (if S = A then c else 0) else 0
          simp only [if_pos hS]
          exact hK S hS.1 hS.2.1 hS.2.2 L' hL'
        · show avg N L' (fun w => if good S then (if ReturnsPlan R g (K S w).1 then 1 else 0) else 0) = if good S then (if S = A then c else 0) else 0
          simp only [if_neg hS]
          exact avg_const hN L' 0

end law

/-- **C102.**  The probability that `recursive_tree_part` returns the plan `g`, for any way to draw spanning trees. -/
theorem C102_law (G : Graph V) (hG : G.WF) (hconn : ConnectedOn G G.nodes) (N r m d0 : ℕ) (hN : 0 < N) (hdiv : (2 ^ G.edges.card).factorial ∣ N) (hr : 0 < r)
    (span : Graph V → M Tape (WTree V)) (hspan : SpanOk span) (μ : Finset V → Finset (V × V) → ℚ) (hl : TreeLaw N d0 G span μ)
    (pop : V → ℚ) (target eps : ℚ) (ht : 0 < target) (he : 0 ≤ eps) (he1 : eps < 1) (parts : List P) (hnd : parts.Nodup) (g : V → Option P)
    (L : ℕ) (hL : parts.length * (d0 + (m * (d0 + (1 + 2 * G.nodes.card)) + 1)) ≤ L) :
    prob N L (recursiveTreePart (spanMethod N r m span pop) G parts pop target eps) (ReturnsPlan G.nodes g) =
      planLaw r m G pop target eps μ g parts G.nodes 0 :=
  recursiveLoop_law hG hN hdiv hr hl hspan ht he he1 g parts G.nodes 0 Dict.empty hnd (subset_refl _) hconn (by rw [abs_zero]; positivity) L hL

/-- **C102 (uniform spanning trees).** -/
theorem C102_uniform (G : Graph V) (hG : G.WF) (hconn : ConnectedOn G G.nodes) (N r m : ℕ) (hN : 0 < N) (hdiv : (2 ^ G.edges.card).factorial ∣ N) (hr : 0 < r)
    (pop : V → ℚ) (target eps : ℚ) (ht : 0 < target) (he : 0 ≤ eps) (he1 : eps < 1) (parts : List P) (hnd : parts.Nodup) (g : V → Option P)
    (L : ℕ) (hL : parts.length * (1 + (m * (1 + (1 + 2 * G.nodes.card)) + 1)) ≤ L) :
    prob N L (recursiveTreePart (spanMethod N r m (uniformSpan N) pop) G parts pop target eps) (ReturnsPlan G.nodes g) =
      planLaw r m G pop target eps (uniformLaw G) g parts G.nodes 0 :=
  C102_law G hG hconn N r m 1 hN hdiv hr _ (spanOk_ideal N) _ (uniform_treeLaw hG hN hdiv) pop target eps ht he he1 parts hnd g L hL

/-- **C102 (default spanning trees).**  The probabilities of the trees are those of C97. -/
theorem C102_default (G : Graph V) (hG : G.WF) (hconn : ConnectedOn G G.nodes) (N r m : ℕ) (hN : 0 < N) (hdiv : (2 ^ G.edges.card).factorial ∣ N) (hr : 0 < r)
    (pop : V → ℚ) (target eps : ℚ) (ht : 0 < target) (he : 0 ≤ eps) (he1 : eps < 1) (parts : List P) (hnd : parts.Nodup) (g : V → Option P)
    (L : ℕ) (hL : parts.length * (G.edges.card + (m * (G.edges.card + (1 + 2 * G.nodes.card)) + 1)) ≤ L) :
    prob N L (recursiveTreePart (spanMethod N r m (kruskalSpan N) pop) G parts pop target eps) (ReturnsPlan G.nodes g) =
      planLaw r m G pop target eps (treeChance N G) g parts G.nodes 0 :=
  C102_law G hG hconn N r m G.edges.card hN hdiv hr _ (spanOk_random (uniRand_valid hN) _ none) _ (kruskal_treeLaw hG hN) pop target eps ht he he1 parts hnd g L hL

/-! ### Who gets which side -/

/-- **C102 (last two districts).**  The side that gets the first of the last two labels is the one with the root: its share of the nodes that are not
leaves of the tree. -/
theorem C102_share_two_sided (ok : ℚ → Prop) (pop : V → ℚ) (E : Finset (V × V)) (A B : Finset V) (hA : ok (popOf pop A)) (hB : ok (popOf pop B)) :
    pickShare false ok pop E A B = (innerNodes (A ∪ B) E ∩ A).card / ((innerNodes (A ∪ B) E).card : ℚ) := by
  classical
  unfold pickShare
  congr 2
  congr 1
  ext x
  rw [Finset.mem_filter, Finset.mem_inter]
  simp [SidePicked, hA, hB]

/-- **C102 (other districts).**  If both sides have the population asked for, the side without the root is cut off. -/
theorem C102_share_one_sided (ok : ℚ → Prop) (pop : V → ℚ) (E : Finset (V × V)) (A B : Finset V) (hAB : Disjoint A B) (hA : ok (popOf pop A)) (hB : ok (popOf pop B)) :
    pickShare true ok pop E A B = (innerNodes (A ∪ B) E ∩ B).card / ((innerNodes (A ∪ B) E).card : ℚ) := by
  classical
  unfold pickShare
  congr 2
  congr 1
  ext x
  rw [Finset.mem_filter, Finset.mem_inter]
  refine and_congr_right (fun hx => ?_)
  have hm := (Finset.mem_union.1 (Finset.mem_filter.1 hx).1)
  simp only [SidePicked, if_true, hA, hB, true_and, not_true, or_false]
  exact ⟨fun h => hm.resolve_left h, fun h h' => Finset.disjoint_left.1 hAB h' h⟩

/-- If only one side has the population asked for, it is cut off whatever the root is. -/
theorem C102_share_one_only (ok : ℚ → Prop) (pop : V → ℚ) (E : Finset (V × V)) (A B : Finset V) (hA : ok (popOf pop A)) (hB : ¬ ok (popOf pop B))
    (h : (innerNodes (A ∪ B) E).Nonempty) : pickShare true ok pop E A B = 1 ∧ pickShare true ok pop E B A = 0 := by
  classical
  unfold pickShare
  constructor
  · rw [Finset.filter_true_of_mem (fun x _ => by simp [SidePicked, hA, hB])]
    exact div_self (by exact_mod_cast h.card_pos.ne')
  · rw [Finset.filter_false_of_mem (fun x _ => by simp [SidePicked, hB]), Finset.card_empty]
    simp

/-! ### Two districts -/

theorem cutEdges_near (pop : V → ℚ) (target eps : ℚ) (U : Finset V) (E : Finset (V × V)) :
    cutEdges false (Near target eps) pop U E = balancedEdges U E pop target eps := by
  classical
  ext e
  unfold cutEdges balancedEdges
  rw [Finset.mem_filter, Finset.mem_filter]
  simp [CutEdge, BalancedEdge, Admits]

theorem part_sum {G : Graph V} {pop : V → ℚ} {target eps : ℚ} (μ : Finset V → Finset (V × V) → ℚ) {A B : Finset V} (hAB : Disjoint A B) (hU : A ∪ B ⊆ G.nodes)
    (h3 : 3 ≤ (A ∪ B).card) (nA : Near target eps (popOf pop A)) (nB : Near target eps (popOf pop B)) :
    partChance false (Near target eps) G pop μ A B + partChance false (Near target eps) G pop μ B A = splitChance G pop target eps μ A B := by
  unfold partChance splitChance
  rw [Finset.union_comm B A, seamOf_comm G B A, ← Finset.sum_add_distrib]
  refine Finset.sum_congr rfl (fun E hE => ?_)
  obtain ⟨-, htr⟩ := (mem_treeSets hU).1 (Finset.mem_filter.1 hE).1
  rw [C102_share_two_sided _ _ _ _ _ nA nB, C102_share_two_sided _ _ _ _ _ nB nA, Finset.union_comm B A, cutEdges_near]
  have hpos : ((innerNodes (A ∪ B) E).card : ℚ) ≠ 0 := by
    have := exists_inner_node htr h3
    rw [← length_inner]
    intro h
    exact this (List.length_eq_zero_iff.1 (by exact_mod_cast h))
  have hsum : ((innerNodes (A ∪ B) E ∩ A).card : ℚ) + (innerNodes (A ∪ B) E ∩ B).card = (innerNodes (A ∪ B) E).card := by
    have hsub : innerNodes (A ∪ B) E ⊆ A ∪ B := Finset.filter_subset _ _
    rw [← Nat.cast_add, ← Finset.card_union_of_disjoint (hAB.mono Finset.inter_subset_right Finset.inter_subset_right), ← Finset.inter_union_distrib_left,
      Finset.inter_eq_left.2 hsub]
  rw [← mul_add, ← add_div, ← add_div, hsum, div_self hpos]
  ring

theorem partLaw_sum {G : Graph V} {pop : V → ℚ} {target eps : ℚ} {r m : ℕ} (μ : Finset V → Finset (V × V) → ℚ) {A B : Finset V} (hAB : Disjoint A B)
    (hU : A ∪ B ⊆ G.nodes) (h3 : 3 ≤ (A ∪ B).card) (nA : Near target eps (popOf pop A)) (nB : Near target eps (popOf pop B)) :
    partLaw false (PopOk target eps) r m G pop μ A B + partLaw false (PopOk target eps) r m G pop μ B A =
      splitChance G pop target eps μ A B / cutChance G pop target eps μ (A ∪ B) * seenChance r m G pop target eps μ (A ∪ B) := by
  have hc : someChance false (Near target eps) G pop μ (A ∪ B) = cutChance G pop target eps μ (A ∪ B) := by
    unfold someChance cutChance
    simp only [cutEdges_near]
  unfold partLaw seenChance
  rw [← near_funext, Finset.union_comm B A, hc, ← part_sum μ hAB hU h3 nA nB]
  ring

/-- the plan with the label `p` on `A` and `q` elsewhere -/
def twoPlan (p q : P) (A : Finset V) (v : V) : Option P := if v ∈ A then some p else some q

theorem cellOf_two {p q : P} (hpq : p ≠ q) {A B : Finset V} (hAB : Disjoint A B) :
    cellOf (A ∪ B) (twoPlan p q A) p = A ∧ cellOf (A ∪ B) (twoPlan p q A) q = B := by
  constructor
  · ext v
    simp only [cellOf, twoPlan, Finset.mem_filter, Finset.mem_union]
    by_cases h : v ∈ A <;> simp [h, hpq.symm]
  · ext v
    simp only [cellOf, twoPlan, Finset.mem_filter, Finset.mem_union]
    by_cases h : v ∈ A
    · simp [h, hpq, Finset.disjoint_left.1 hAB h]
    · simp [h]

theorem planLaw_two {p q : P} (hpq : p ≠ q) {G : Graph V} {pop : V → ℚ} {target eps debt : ℚ} {r m : ℕ} {μ : Finset V → Finset (V × V) → ℚ} {A B : Finset V}
    (hAB : Disjoint A B) :
    planLaw r m G pop target eps μ (twoPlan p q A) [p, q] (A ∪ B) debt = partLaw false (PopOk target eps) r m G pop μ A B := by
  obtain ⟨h1, h2⟩ := cellOf_two hpq hAB
  rw [planLaw, h1, h2, if_pos rfl]

/-- **C102 (two districts).**  With two labels the probability of a pair of districts, whichever of them gets the first label, is the probability with which
`recom` proposes it (C95, C98). -/
theorem C102_two_districts (G : Graph V) (hG : G.WF) (hconn : ConnectedOn G G.nodes) (N r m d0 : ℕ) (hN : 0 < N) (hdiv : (2 ^ G.edges.card).factorial ∣ N)
    (hr : 0 < r) (span : Graph V → M Tape (WTree V)) (hspan : SpanOk span) (μ : Finset V → Finset (V × V) → ℚ) (hl : TreeLaw N d0 G span μ)
    (pop : V → ℚ) (target eps : ℚ) (ht : 0 < target) (he : 0 ≤ eps) (he1 : eps < 1) (p q : P) (hpq : p ≠ q) (h3 : 3 ≤ G.nodes.card)
    (A B : Finset V) (hAB : Disjoint A B) (hU : A ∪ B = G.nodes) (nA : Near target eps (popOf pop A)) (nB : Near target eps (popOf pop B))
    (L : ℕ) (hL : 2 * (d0 + (m * (d0 + (1 + 2 * G.nodes.card)) + 1)) ≤ L) :
    prob N L (recursiveTreePart (spanMethod N r m span pop) G [p, q] pop target eps) (ReturnsPlan G.nodes (twoPlan p q A)) +
      prob N L (recursiveTreePart (spanMethod N r m span pop) G [p, q] pop target eps) (ReturnsPlan G.nodes (twoPlan p q B)) =
      splitChance G pop target eps μ A B / cutChance G pop target eps μ G.nodes * seenChance r m G pop target eps μ G.nodes := by
  have hlaw := fun g => C102_law G hG hconn N r m d0 hN hdiv hr span hspan μ hl pop target eps ht he he1 [p, q] (by simp [hpq]) g L hL
  rw [hlaw, hlaw, ← hU, planLaw_two hpq hAB, Finset.union_comm A B, planLaw_two hpq hAB.symm, Finset.union_comm B A]
  exact partLaw_sum μ hAB (by rw [hU]) (by rw [hU]; exact h3) nA nB

/-! ### Graphs that are trees -/

theorem treeSets_tree {H : Graph V} (hH : IsTree H) : treeSets H = {H.edges} := by
  classical
  ext E
  unfold treeSets
  rw [Finset.mem_filter, Finset.mem_powerset, Finset.mem_singleton]
  constructor
  · rintro ⟨h1, h2⟩
    refine Finset.eq_of_subset_of_card_le h1 ?_
    have := hH.card
    have := h2.card
    simp only at this
    omega
  · rintro rfl
    exact ⟨subset_refl _, hH⟩

theorem TreeLaw.on_tree {N d0 : ℕ} {G : Graph V} {span : Graph V → M Tape (WTree V)} {μ : Finset V → Finset (V × V) → ℚ} (hl : TreeLaw N d0 G span μ)
    {U : Finset V} (hU : U ⊆ G.nodes) (hT : IsTree (G.subgraph U)) : μ U (G.subgraph U).edges = 1 := by
  have := (hl.on U hU ((connectedOn_subgraph hU).1 hT.conn)).sum
  rwa [treeSets_tree hT, Finset.sum_singleton] at this

theorem partLaw_tree {o : Bool} {ok : ℚ → Prop} {r m : ℕ} (hr : 0 < r) (hm : 0 < m) {G : Graph V} {pop : V → ℚ} {μ : Finset V → Finset (V × V) → ℚ} {A B : Finset V}
    (hT : IsTree (G.subgraph (A ∪ B))) (hμ : μ (A ∪ B) (G.subgraph (A ∪ B)).edges = 1) (hseam : ((G.subgraph (A ∪ B)).edges ∩ seamOf G A B).card = 1)
    (hcut : cutEdges o ok pop (A ∪ B) (G.subgraph (A ∪ B)).edges ≠ ∅) :
    partLaw o ok r m G pop μ A B = pickShare o ok pop (G.subgraph (A ∪ B)).edges A B / ((cutEdges o ok pop (A ∪ B) (G.subgraph (A ∪ B)).edges).card : ℚ) := by
  classical
  have h1 : someChance o ok G pop μ (A ∪ B) = 1 := by
    unfold someChance
    rw [treeSets_tree hT, Finset.filter_true_of_mem (by intro E hE; rw [Finset.mem_singleton.1 hE]; exact hcut), Finset.sum_singleton, hμ]
  have h2 : partChance o ok G pop μ A B = pickShare o ok pop (G.subgraph (A ∪ B)).edges A B / ((cutEdges o ok pop (A ∪ B) (G.subgraph (A ∪ B)).edges).card : ℚ) := by
    unfold partChance
    rw [treeSets_tree hT, Finset.filter_true_of_mem (by intro E hE; rw [Finset.mem_singleton.1 hE]; exact hseam), Finset.sum_singleton, hμ, one_mul]
  have h3 : (m + r - 1) / r ≠ 0 := by
    have : 1 ≤ (m + r - 1) / r := (Nat.one_le_div_iff hr).2 (by omega)
    omega
  unfold partLaw
  rw [h1, h2, sub_self, zero_pow h3]
  ring

/-- **C102 (labels).**  On a graph that is itself a tree the two districts of a plan get the first label with probabilities in the ratio of the numbers of
their nodes that are not leaves. -/
theorem C102_label_ratio (G : Graph V) (hG : IsTree G) (N r m d0 : ℕ) (hN : 0 < N) (hdiv : (2 ^ G.edges.card).factorial ∣ N) (hr : 0 < r) (hm : 0 < m)
    (span : Graph V → M Tape (WTree V)) (hspan : SpanOk span) (μ : Finset V → Finset (V × V) → ℚ) (hl : TreeLaw N d0 G span μ)
    (pop : V → ℚ) (target eps : ℚ) (ht : 0 < target) (he : 0 ≤ eps) (he1 : eps < 1) (p q : P) (hpq : p ≠ q) (h3 : 3 ≤ G.nodes.card)
    (A B : Finset V) (hAB : Disjoint A B) (hU : A ∪ B = G.nodes) (hA0 : A.Nonempty) (hB0 : B.Nonempty) (nA : Near target eps (popOf pop A)) (nB : Near target eps (popOf pop B))
    (hseam : (seamOf G A B).card = 1) (L : ℕ) (hL : 2 * (d0 + (m * (d0 + (1 + 2 * G.nodes.card)) + 1)) ≤ L) :
    ∃ k : ℕ, 0 < k ∧ k = (balancedEdges G.nodes G.edges pop target eps).card ∧
      prob N L (recursiveTreePart (spanMethod N r m span pop) G [p, q] pop target eps) (ReturnsPlan G.nodes (twoPlan p q A)) =
        ((innerNodes G.nodes G.edges ∩ A).card : ℚ) / ((innerNodes G.nodes G.edges).card * k) ∧
      prob N L (recursiveTreePart (spanMethod N r m span pop) G [p, q] pop target eps) (ReturnsPlan G.nodes (twoPlan p q B)) =
        ((innerNodes G.nodes G.edges ∩ B).card : ℚ) / ((innerNodes G.nodes G.edges).card * k) := by
  have hsubg : G.subgraph (A ∪ B) = G := by rw [hU]; exact Graph.subgraph_self hG.wf
  have hE : G.edges ∈ treeSets (G.subgraph (A ∪ B)) := by rw [hsubg, treeSets_tree hG]; exact Finset.mem_singleton_self _
  have hA : A ⊆ G.nodes := hU ▸ Finset.subset_union_left
  have hB : B ⊆ G.nodes := hU ▸ Finset.subset_union_right
  have hinter : ∀ X Y, G.edges ∩ seamOf G X Y = seamOf G X Y := fun X Y => Finset.inter_eq_right.2 (Finset.filter_subset _ _)
  have hpos := seam_balanced hG.wf hAB hA hB hA0 hB0 nA nB hE (by rw [hinter]; exact hseam)
  rw [hU] at hpos
  refine ⟨_, hpos, rfl, ?_⟩
  have hlaw := fun g => C102_law G hG.wf hG.conn N r m d0 hN hdiv hr span hspan μ hl pop target eps ht he he1 [p, q] (by simp [hpq]) g L hL
  have hμ : μ G.nodes G.edges = 1 := by
    have := hl.on_tree (U := G.nodes) (subset_refl _) (by rw [Graph.subgraph_self hG.wf]; exact hG)
    rwa [Graph.subgraph_self hG.wf] at this
  have key : ∀ X Y, Disjoint X Y → X ∪ Y = G.nodes → Near target eps (popOf pop X) → Near target eps (popOf pop Y) → (seamOf G X Y).card = 1 →
      prob N L (recursiveTreePart (spanMethod N r m span pop) G [p, q] pop target eps) (ReturnsPlan G.nodes (twoPlan p q X)) =
        ((innerNodes G.nodes G.edges ∩ X).card : ℚ) / ((innerNodes G.nodes G.edges).card * (balancedEdges G.nodes G.edges pop target eps).card) := by
    intro X Y hXY hXU nX nY hs
    have hsubg : G.subgraph (X ∪ Y) = G := by rw [hXU]; exact Graph.subgraph_self hG.wf
    have hcut : cutEdges false (Near target eps) pop (X ∪ Y) (G.subgraph (X ∪ Y)).edges ≠ ∅ := by
      rw [cutEdges_near, hsubg, hXU]
      intro h
      rw [h] at hpos
      simp at hpos
    rw [hlaw]
    conv_lhs => rw [← hXU]
    rw [planLaw_two hpq hXY, ← near_funext, partLaw_tree hr hm (by rw [hsubg]; exact hG) (by rw [hsubg, hXU]; exact hμ) (by rw [hsubg, hinter]; exact hs) hcut,
      C102_share_two_sided _ _ _ _ _ nX nY, cutEdges_near, hsubg, hXU, div_div]
  exact ⟨key A B hAB hU nA nB hseam, key B A hAB.symm (by rw [Finset.union_comm]; exact hU) nB nA (by rw [seamOf_comm]; exact hseam)⟩

/-- counting the edges that can be cut by running the search from one root -/
theorem cutEdges_card_run {o : Bool} {U : Finset V} {E : Finset (V × V)} (hT : IsTree ⟨U, E⟩) {pop : V → ℚ} {target eps : ℚ} {root : V} (hr : root ∈ U) {k : ℕ}
    (h : (memoFromRoot (uniRand 1) o (2 * U.card) (PopGraph.init U ⟨U, E⟩ (fun _ _ => none) pop target eps) root []).1.toOption.map List.length = some k) :
    (cutEdges o (Near target eps) pop U E).card = k := by
  obtain ⟨cuts, w', h1, h2⟩ := memoRoot_spec hT (uniRand 1) (uniRand_valid Nat.one_pos) (fun _ _ => none) pop target eps o (fuel := 2 * U.card) le_rfl hr []
  rw [h1] at h
  rw [← h2.length hT.wf]
  exact Option.some.inj h

/-! ### Examples -/

/-- five nodes in a row -/
def rowFive : Graph (Fin 5) := ⟨Finset.univ, {(0, 1), (1, 2), (2, 3), (3, 4)}⟩

theorem rowFive_tree : IsTree rowFive := by
  have hwf : rowFive.WF := ⟨by decide, by decide, by decide⟩
  refine ⟨hwf, ?_, rfl⟩
  have h : nxIsConnected rowFive = .ok true := by rfl
  exact (nxIsConnected_true hwf).1 h

theorem rowFive_edges : (balancedEdges rowFive.nodes rowFive.edges (fun _ => 1) (5 / 2) (1 / 5)).card = 2 := by
  rw [← cutEdges_near]
  exact cutEdges_card_run rowFive_tree (root := 1) (by decide) (by decide +kernel)

/-- **C102 (labels are not exchangeable).**  Five nodes in a row, one person each, two districts of two or three nodes: the probability that the first two
nodes form a district is `1/2`, and this district gets the first label only in one of three cases. -/
theorem C102_labels_not_exchangeable (N r m d0 : ℕ) (hN : 0 < N) (hdiv : (2 ^ 4).factorial ∣ N) (hr : 0 < r) (hm : 0 < m)
    (span : Graph (Fin 5) → M Tape (WTree (Fin 5))) (hspan : SpanOk span) (μ : Finset (Fin 5) → Finset (Fin 5 × Fin 5) → ℚ) (hl : TreeLaw N d0 rowFive span μ)
    (L : ℕ) (hL : 2 * (d0 + (m * (d0 + 11) + 1)) ≤ L) :
    prob N L (recursiveTreePart (spanMethod N r m span (fun _ => 1)) rowFive [true, false] (fun _ => 1) (5 / 2) (1 / 5))
        (ReturnsPlan Finset.univ (twoPlan true false {0, 1})) = 1 / 6 ∧
      prob N L (recursiveTreePart (spanMethod N r m span (fun _ => 1)) rowFive [true, false] (fun _ => 1) (5 / 2) (1 / 5))
        (ReturnsPlan Finset.univ (twoPlan true false {2, 3, 4})) = 1 / 3 := by
  obtain ⟨k, -, hk, h1, h2⟩ := C102_label_ratio rowFive rowFive_tree N r m d0 hN hdiv hr hm span hspan μ hl (fun _ => 1) (5 / 2) (1 / 5) (by norm_num) (by norm_num)
    (by norm_num) true false (by decide) (by decide) {0, 1} {2, 3, 4} (by decide) (by decide) (by decide) (by decide) (by decide +kernel) (by decide +kernel)
    (by decide) L hL
  rw [rowFive_edges] at hk
  subst hk
  have c1 : (innerNodes rowFive.nodes rowFive.edges ∩ {0, 1}).card = 1 := by decide +kernel
  have c2 : (innerNodes rowFive.nodes rowFive.edges ∩ {2, 3, 4}).card = 2 := by decide +kernel
  have c3 : (innerNodes rowFive.nodes rowFive.edges).card = 3 := by decide +kernel
  rw [c1, c3] at h1
  rw [c2, c3] at h2
  exact ⟨h1.trans (by norm_num), h2.trans (by norm_num)⟩

/-- the hypotheses hold for the default spanning trees -/
example : TreeLaw ((2 ^ 4).factorial) 4 rowFive (kruskalSpan ((2 ^ 4).factorial)) (treeChance ((2 ^ 4).factorial) rowFive) ∧
    SpanOk (V := Fin 5) (kruskalSpan ((2 ^ 4).factorial)) :=
  ⟨kruskal_treeLaw rowFive_tree.wf (Nat.factorial_pos _), spanOk_random (uniRand_valid (Nat.factorial_pos _)) _ none⟩

/-- six nodes in a row -/
def rowSix : Graph (Fin 6) := ⟨Finset.univ, {(0, 1), (1, 2), (2, 3), (3, 4), (4, 5)}⟩

/-- the plan with the districts `0,1`, `2,3` and `4,5` -/
def rowPlan (v : Fin 6) : Option (Fin 3) := some (if v < 2 then 0 else if v < 4 then 1 else 2)

theorem rowSix_tree : IsTree rowSix := by
  have hwf : rowSix.WF := ⟨by decide, by decide, by decide⟩
  refine ⟨hwf, ?_, rfl⟩
  have h : nxIsConnected rowSix = .ok true := by rfl
  exact (nxIsConnected_true hwf).1 h

theorem rowSix_end : IsTree (rowSix.subgraph {2, 3, 4, 5}) := by
  have hwf : (rowSix.subgraph {2, 3, 4, 5}).WF := rowSix_tree.wf.subgraph _
  refine ⟨hwf, ?_, by decide⟩
  have h : nxIsConnected (rowSix.subgraph {2, 3, 4, 5}) = .ok true := by decide +kernel
  exact (nxIsConnected_true hwf).1 h

theorem window_exact : (fun x : ℚ => PopOk 2 0 x ∧ |0 + (x - 2)| ≤ 0 * 2) = Near 2 0 := by
  funext x
  refine propext ?_
  rw [near_iff_popOk]
  constructor
  · exact fun h => h.1
  · intro h
    obtain ⟨h1, h2⟩ := id h
    have : x = 2 := by linarith
    subst this
    exact ⟨h, by norm_num⟩

/-- **C102 (an example with three districts).**  Six nodes in a row, one person each, three districts: the plan with the labels in the order of the nodes has
the probability `1/4`. -/
theorem C102_row_example (N r m d0 : ℕ) (hN : 0 < N) (hdiv : (2 ^ 5).factorial ∣ N) (hr : 0 < r) (hm : 0 < m)
    (span : Graph (Fin 6) → M Tape (WTree (Fin 6))) (hspan : SpanOk span) (μ : Finset (Fin 6) → Finset (Fin 6 × Fin 6) → ℚ) (hl : TreeLaw N d0 rowSix span μ)
    (L : ℕ) (hL : 3 * (d0 + (m * (d0 + 13) + 1)) ≤ L) :
    prob N L (recursiveTreePart (spanMethod N r m span (fun _ => 1)) rowSix [0, 1, 2] (fun _ => 1) 2 0) (ReturnsPlan Finset.univ rowPlan) = 1 / 4 := by
  have h := C102_law rowSix rowSix_tree.wf rowSix_tree.conn N r m d0 hN hdiv hr span hspan μ hl (fun _ => 1) 2 0 (by norm_num) (by norm_num) (by norm_num)
    [0, 1, 2] (by decide) rowPlan L hL
  refine h.trans ?_
  have a1 : cellOf rowSix.nodes rowPlan 0 = {0, 1} := by decide
  have a2 : rowSix.nodes \ {0, 1} = {2, 3, 4, 5} := by decide
  have a3 : cellOf {2, 3, 4, 5} rowPlan 1 = {2, 3} := by decide
  have a4 : cellOf {2, 3, 4, 5} rowPlan 2 = {4, 5} := by decide
  have u1 : ({0, 1} ∪ {2, 3, 4, 5} : Finset (Fin 6)) = rowSix.nodes := by decide
  have u2 : ({2, 3} ∪ {4, 5} : Finset (Fin 6)) = {2, 3, 4, 5} := by decide
  have s1 : rowSix.subgraph rowSix.nodes = rowSix := Graph.subgraph_self rowSix_tree.wf
  have t2 : (⟨{2, 3, 4, 5}, (rowSix.subgraph {2, 3, 4, 5}).edges⟩ : Graph (Fin 6)) = rowSix.subgraph {2, 3, 4, 5} :=
    congrArg (fun X => (⟨X, (rowSix.subgraph {2, 3, 4, 5}).edges⟩ : Graph (Fin 6))) (subgraph_nodes (G := rowSix) (s := {2, 3, 4, 5}) (by decide)).symm
  have k1 : (cutEdges true (Near 2 0) (fun _ => 1) rowSix.nodes rowSix.edges).card = 2 :=
    cutEdges_card_run rowSix_tree (root := 1) (by decide) (by decide +kernel)
  have k2 : (cutEdges false (Near 2 0) (fun _ => 1) {2, 3, 4, 5} (rowSix.subgraph {2, 3, 4, 5}).edges).card = 1 :=
    cutEdges_card_run (by rw [t2]; exact rowSix_end) (root := 3) (by decide) (by decide +kernel)
  rw [planLaw, a1, a2, planLaw, a3, a4, if_pos u2.symm, window_exact, ← near_funext]
  have l1 : partLaw true (Near 2 0) r m rowSix (fun _ => 1) μ {0, 1} {2, 3, 4, 5} = 1 / 2 := by
    rw [partLaw_tree hr hm (by rw [u1, s1]; exact rowSix_tree)
      (by rw [u1]; exact hl.on_tree (subset_refl _) (by rw [s1]; exact rowSix_tree)) (by rw [u1, s1]; decide)
      (by rw [u1, s1]; intro h; rw [h] at k1; simp at k1)]
    rw [(C102_share_one_only (Near 2 0) (fun _ => 1) _ {0, 1} {2, 3, 4, 5} (by decide +kernel) (by decide +kernel) (by decide +kernel)).1, u1, s1, k1]
    norm_num
  have l2 : partLaw false (Near 2 0) r m rowSix (fun _ => 1) μ {2, 3} {4, 5} = 1 / 2 := by
    rw [partLaw_tree hr hm (by rw [u2]; exact rowSix_end)
      (by rw [u2]; exact hl.on_tree (by decide) rowSix_end) (by decide +kernel)
      (by rw [u2]; intro h; rw [h] at k2; simp at k2)]
    rw [C102_share_two_sided (Near 2 0) (fun _ => 1) _ {2, 3} {4, 5} (by decide +kernel) (by decide +kernel), u2, k2]
    have c1 : (innerNodes {2, 3, 4, 5} (rowSix.subgraph {2, 3, 4, 5}).edges ∩ {2, 3}).card = 1 := by decide +kernel
    have c2 : (innerNodes {2, 3, 4, 5} (rowSix.subgraph {2, 3, 4, 5}).edges).card = 2 := by decide +kernel
    rw [c1, c2]
    norm_num
  rw [l1, l2]
  norm_num

end GC

import Verif.Lemmas.PlanMoves

/-!
# Detailed balance of `reversible_recom` (C56)

The random numbers are those of `Model/Tape.lean`; the spanning tree is drawn uniformly (`uniformSpan`), which is what the documentation of
`uniform_spanning_tree` promises; `Props/WilsonBalance.lean` replaces it by Wilson's algorithm, as coded.  The states are plans without labels: which of
the two new districts keeps which label depends on the orientation of the seam edge that was drawn and on the root of the tree, and the labelled
chain is not symmetric in that respect.
-/

set_option linter.unusedSectionVars false
set_option autoImplicit false

namespace GC

variable {V P S : Type} [LinearOrder V] [LinearOrder P]

/-- the ideal `uniform_spanning_tree` (gerrychain/tree.py:97-132): every spanning tree with the same probability -/
noncomputable def uniformSpan (N : ℕ) (H : Graph V) : M Tape (WTree V) := do
  let E ← (uniRand N).choice (treeSets H).toList
  pure ⟨⟨H.nodes, E⟩, fun _ _ => none⟩

/-- `reversible_recom` (proposals/tree_proposals.py:149-267) with the ideal spanning tree and the default balance function;
`repeat_until_valid` is `False`, its default -/
noncomputable def revMove (N bound fuel : ℕ) (G : Graph V) (a : Assignment V P) (pop : V → ℚ) (target eps : ℚ) : M Tape (Option (Dict V P)) :=
  revFlips (uniRand N) (uniformSpan N) (memoBalance (uniRand N) false) bound false fuel G a pop target eps

/-- the plan returned by `reversible_recom`, the old one or the one given by the flips, has the districts `Q` -/
def landsOn (a : Assignment V P) (Q : Finset (Finset V)) : Py (Option (Dict V P)) → Bool
  | .ok none => decide (a.plan = Q)
  | .ok (some flips) => match a.flip flips with
    | .ok b => decide (b.plan = Q)
    | .error _ => false
  | .error _ => false

/-- the probability that `reversible_recom` moves from the plan `a` to a plan with the districts `Q` -/
noncomputable def transition (N L bound fuel : ℕ) (G : Graph V) (pop : V → ℚ) (target eps : ℚ) (a : Assignment V P) (Q : Finset (Finset V)) : ℚ :=
  prob N L (revMove N bound fuel G a pop target eps) (fun r => landsOn a Q r = true)

/-! ### The program in one line -/

theorem M.bind_assoc' {α β γ : Type} (m : M S α) (f : α → M S β) (g : β → M S γ) : (m >>= f) >>= g = m >>= fun x => f x >>= g := by
  funext s
  show M.bind (M.bind m f) g s = M.bind m (fun x => M.bind (f x) g) s
  unfold M.bind
  rcases m s with ⟨_ | a, s'⟩ <;> rfl

theorem M.pure_bind' {α β : Type} (x : α) (f : α → M S β) : (pure x : M S α) >>= f = f x := rfl

theorem M.ite_bind {α β : Type} (c : Prop) [Decidable c] (x y : M S α) (f : α → M S β) :
    (if c then x else y) >>= f = if c then x >>= f else y >>= f := by split_ifs <;> rfl

/-- after the cut has been chosen -/
def revCut (R : Rand S) (bound : ℤ) (G : Graph V) (a : Assignment V P) (pair pq : P × P) (U : Finset V) (n : ℕ) (c : Cut V) :
    M S (Option (Dict V P)) := do
  let b ← M.lift (a.flip (cutFlips pq.1 pq.2 U c.subset))
  let prob ← M.lift (revProb bound n (distPairEdges G b.mapping pair.1 pair.2).card)
  if prob > 1 then M.raise .reversibilityError
  else do
    let x ← R.random
    if x < prob then pure (some (cutFlips pq.1 pq.2 U c.subset)) else pure none

/-- after the cuts have been found -/
def revCuts (R : Rand S) (bound : ℤ) (G : Graph V) (a : Assignment V P) (pair pq : P × P) (U : Finset V) (cuts : List (Cut V)) :
    M S (Option (Dict V P)) :=
  if cuts = [] then pure none else R.choice cuts >>= revCut R bound G a pair pq U cuts.length

/-- after the tree has been drawn -/
def revTree (R : Rand S) (balance : PopGraph V → M S (List (Cut V))) (bound : ℤ) (G : Graph V) (a : Assignment V P) (pop : V → ℚ)
    (target eps : ℚ) (pair pq : P × P) (U : Finset V) (t : WTree V) : M S (Option (Dict V P)) :=
  boundedBalance bound balance (PopGraph.init U t.graph t.weight pop target eps) >>= revCuts R bound G a pair pq U

/-- after the seam edge has been drawn -/
def revEdge (R : Rand S) (span : Graph V → M S (WTree V)) (balance : PopGraph V → M S (List (Cut V))) (bound : ℤ) (G : Graph V)
    (a : Assignment V P) (pop : V → ℚ) (target eps : ℚ) (pair : P × P) (edge : V × V) : M S (Option (Dict V P)) := do
  let pq ← M.lift (endLabels a edge)
  let s ← M.lift (mergedNodes a pq.1 pq.2)
  let t ← span (G.subgraph s)
  revTree R balance bound G a pop target eps pair pq (G.subgraph s).nodes t

/-- after the pair of districts has been drawn -/
def revPair (R : Rand S) (span : Graph V → M S (WTree V)) (balance : PopGraph V → M S (List (Cut V))) (bound : ℤ) (G : Graph V)
    (a : Assignment V P) (pop : V → ℚ) (target eps : ℚ) (pair : P × P) : M S (Option (Dict V P)) :=
  if pair.1 = pair.2 ∨ distPairEdges G a.mapping pair.1 pair.2 = ∅ then pure none
  else R.choice (iterE (distPairEdges G a.mapping pair.1 pair.2)) >>= revEdge R span balance bound G a pop target eps pair

theorem revFlips_eq (R : Rand S) (span : Graph V → M S (WTree V)) (balance : PopGraph V → M S (List (Cut V))) (bound : ℤ) (fuel : ℕ)
    (G : Graph V) (a : Assignment V P) (pop : V → ℚ) (target eps : ℚ) :
    revFlips R span balance bound false (fuel + 1) G a pop target eps =
      R.choice (allPairs a) >>= revPair R span balance bound G a pop target eps := by
  unfold revFlips revCandidate
  rw [M.bind_assoc']
  congr 1
  funext pair
  unfold revPair
  simp only [M.ite_bind, M.bind_assoc', M.pure_bind']
  congr 1
  congr 1
  funext edge
  unfold revEdge
  congr 1
  funext pq
  congr 1
  funext s
  unfold bipartitionRandomAll
  rw [M.bind_assoc']
  congr 1
  funext t
  unfold randomAllLoop bipStep
  rw [if_pos (by simp [attemptsLeft]), if_neg (by simp)]
  simp only [M.bind_assoc', M.pure_bind', Bool.false_and, Bool.false_eq_true, if_false]
  unfold revTree
  refine congrArg (M.bind (boundedBalance bound balance (PopGraph.init (G.subgraph s).nodes t.graph t.weight pop target eps))) ?_
  funext cuts
  unfold revCuts
  show ite (cuts = []) _ _ = ite (cuts = []) _ _
  congr 1

/-! ### The probability of each outcome -/

/-- what the theorems assume, in one place -/
structure RevSetup (N bound : ℕ) (G : Graph V) (a : Assignment V P) (Q : Finset (Finset V)) (pop : V → ℚ) (target eps : ℚ) : Prop where
  wf : G.WF
  pos : 0 < N
  div : (G.nodes.card ^ 2 + 2 ^ G.edges.card + bound * G.edges.card).factorial ∣ N
  bounded : ∀ U ⊆ G.nodes, ∀ E ∈ treeSets (G.subgraph U), (balancedEdges U E pop target eps).card ≤ bound
  coherent : a.Coherent
  covers : a.Covers G.nodes
  contiguous : ContiguousPlan G a
  part : IsPartition G.nodes Q
  near : ∀ X ∈ Q, Near target eps (popOf pop X)
  ne : a.plan ≠ Q

/-- the indicator of the event -/
def hit (a : Assignment V P) (Q : Finset (Finset V)) (r : Py (Option (Dict V P))) : ℚ := if landsOn a Q r = true then 1 else 0

section values
variable {N bound : ℕ} {G : Graph V} {a : Assignment V P} {Q : Finset (Finset V)} {pop : V → ℚ} {target eps : ℚ}

theorem RevSetup.dvd (h : RevSetup N bound G a Q pop target eps) {d : ℕ} (h0 : 0 < d)
    (hd : d ≤ G.nodes.card ^ 2 + 2 ^ G.edges.card + bound * G.edges.card) : d ∣ N :=
  (Nat.dvd_factorial h0 hd).trans h.div

theorem RevSetup.dvd1 (h : RevSetup N bound G a Q pop target eps) {d : ℕ} (h0 : 0 < d) (hd : d ≤ G.nodes.card ^ 2) : d ∣ N :=
  h.dvd h0 (hd.trans ((Nat.le_add_right _ _).trans (Nat.le_add_right _ _)))

theorem RevSetup.dvd2 (h : RevSetup N bound G a Q pop target eps) {d : ℕ} (h0 : 0 < d) (hd : d ≤ 2 ^ G.edges.card) : d ∣ N :=
  h.dvd h0 (hd.trans ((Nat.le_add_left _ _).trans (Nat.le_add_right _ _)))

theorem RevSetup.dvd3 (h : RevSetup N bound G a Q pop target eps) {d : ℕ} (h0 : 0 < d) (hd : d ≤ bound * G.edges.card) : d ∣ N :=
  h.dvd h0 (hd.trans (Nat.le_add_left _ _))

/-- a connected graph has a spanning tree -/
theorem exists_tree {H : Graph V} (hH : H.WF) (hc : ConnectedOn H H.nodes) : (treeSets H).Nonempty := by
  obtain ⟨t, -, -, hT, -⟩ := C42_random_spanning_tree (A := ℕ) (uniRand_valid Nat.one_pos) (fun _ _ => none) none H hH hc []
  obtain ⟨E, hE, -⟩ := treeSets_complete hH hT
  exact ⟨E, hE⟩

theorem length_iterE (s : Finset (V × V)) : (iterE s).length = s.card := by
  rw [← Multiset.coe_card, coe_iterE]; rfl

theorem RevSetup.isPart (h : RevSetup N bound G a Q pop target eps) : IsPartition G.nodes a.plan :=
  isPartition_plan h.coherent h.covers h.contiguous

theorem RevSetup.hit_none (h : RevSetup N bound G a Q pop target eps) : hit a Q (.ok none) = 0 := by
  unfold hit landsOn
  rw [if_neg]
  rw [decide_eq_true_eq]
  exact h.ne

theorem hit_error (e : PyErr) : hit a Q (.error e) = 0 := rfl

theorem RevSetup.sub (h : RevSetup N bound G a Q pop target eps) {p : P} {s : Finset V} (hs : a.parts.get? p = some s) : s ⊆ G.nodes := by
  intro x hx
  exact (h.isPart.cover x).2 ⟨s, (mem_plan h.coherent).2 ⟨p, hs⟩, hx⟩

/-- one cut -/
theorem cut_value (h : RevSetup N bound G a Q pop target eps) {pair pq : P × P} (hpair : pair = pq ∨ pair = (pq.2, pq.1)) (hne : pq.1 ≠ pq.2)
    {s t : Finset V} (hs : a.parts.get? pq.1 = some s) (ht : a.parts.get? pq.2 = some t) (c : Cut V) (hS : c.subset ⊆ s ∪ t) {n : ℕ}
    (hn : 0 < n) (hnb : n ≤ bound) (hseam : 0 < (seamOf G c.subset ((s ∪ t) \ c.subset)).card) (L : ℕ) (hL : 1 ≤ L) :
    avg N L (fun w => hit a Q (revCut (uniRand N) bound G a pair pq (s ∪ t) n c w).1) =
      if (a.plan \ {s, t}) ∪ {c.subset, (s ∪ t) \ c.subset} = Q then
        (n : ℚ) / (bound * (seamOf G c.subset ((s ∪ t) \ c.subset)).card) else 0 := by
  obtain ⟨b, hb⟩ := cutFlips_total (G := G) h.coherent hs ht hS
  have hplan := plan_cutFlips h.coherent hne hs ht (h.contiguous _ _ hs).1 (h.contiguous _ _ ht).1 hS hb
  have hse : distPairEdges G b.mapping pair.1 pair.2 = seamOf G c.subset ((s ∪ t) \ c.subset) := by
    rw [← seam_cutFlips h.coherent hne hs ht hS hb]
    rcases hpair with rfl | rfl
    · rfl
    · exact distPairEdges_comm _ _ _ _
  set k := (seamOf G c.subset ((s ∪ t) \ c.subset)).card with hk
  have hbpos : 0 < bound := by omega
  have hbk : 0 < bound * k := Nat.mul_pos hbpos hseam
  have hrp : revProb bound n k = .ok ((n : ℚ) / (bound * k)) := by
    unfold revProb
    rw [if_neg]
    · push_cast; rfl
    · have : (0 : ℤ) < bound * k := by exact_mod_cast hbk
      omega
  have hbkQ : (0 : ℚ) < bound * k := by exact_mod_cast hbk
  have hle1 : (n : ℚ) / (bound * k) ≤ 1 := by
    rw [div_le_one hbkQ]
    have : n ≤ bound * k := hnb.trans (Nat.le_mul_of_pos_right _ hseam)
    exact_mod_cast this
  have hprog : ∀ w, revCut (uniRand N) bound G a pair pq (s ∪ t) n c w =
      ((uniRand N).random >>= (fun u => (if u < (n : ℚ) / (bound * k) then pure (some (cutFlips pq.1 pq.2 (s ∪ t) c.subset)) else pure none : M Tape _))) w := by
    intro w
    unfold revCut
    rw [hb]
    show (M.lift (revProb (bound : ℤ) n (distPairEdges G b.mapping pair.1 pair.2).card) >>= _ : M Tape _) w = _
    rw [hse, ← hk, hrp]
    show (if (n : ℚ) / (bound * k) > 1 then _ else _ : M Tape _) w = _
    rw [if_neg (not_lt.2 hle1)]
  obtain ⟨L, rfl⟩ : ∃ L', L = L' + 1 := ⟨L - 1, by omega⟩
  have hdvd : bound * k ∣ N := by
    refine h.dvd3 hbk (Nat.mul_le_mul_left bound ?_)
    exact Finset.card_le_card (Finset.filter_subset _ _)
  obtain ⟨m, hm⟩ := hdvd
  have hNQ : (0 : ℚ) < N := by exact_mod_cast h.pos
  have hpk : (n : ℚ) / (bound * k) = ((n * m : ℕ) : ℚ) / N := by
    rw [hm]
    have hm0 : (m : ℚ) ≠ 0 := by
      have : m ≠ 0 := by
        rintro rfl
        have := h.pos
        omega
      exact_mod_cast this
    push_cast
    rw [div_eq_div_iff hbkQ.ne' (mul_ne_zero hbkQ.ne' hm0)]
    ring
  rw [avg_congr N (L + 1) (fun w => by rw [hprog w]),
    avg_random h.pos L _ (n * m) hpk hle1 (some (cutFlips pq.1 pq.2 (s ∪ t) c.subset)) none (hit a Q), h.hit_none, mul_zero, add_zero]
  have hhit : hit a Q (.ok (some (cutFlips pq.1 pq.2 (s ∪ t) c.subset))) =
      if (a.plan \ {s, t}) ∪ {c.subset, (s ∪ t) \ c.subset} = Q then 1 else 0 := by
    unfold hit landsOn
    simp only [hb, hplan, decide_eq_true_eq]
  rw [hhit]
  split_ifs <;> simp

/-- what the balance function returns on a tree -/
structure CutList (G : Graph V) (U : Finset V) (E : Finset (V × V)) (pop : V → ℚ) (target eps : ℚ) (cuts : List (Cut V)) : Prop where
  nodup : (cuts.map (fun c => sortPair c.edge)).Nodup
  sound : ∀ c ∈ cuts, BalancedEdge ⟨U, E⟩ pop target eps c.edge.1 c.edge.2 ∧ IsSide ⟨U, E⟩ c.edge.2 c.edge.1 c.subset
  all : ∀ u v, BalancedEdge ⟨U, E⟩ pop target eps u v → ∃ c ∈ cuts, c.edge = (u, v) ∨ c.edge = (v, u)

/-- the cuts of a tree split its nodes in two nonempty sets joined by an edge -/
theorem CutList.split (hG : G.WF) {U : Finset V} (hU : U ⊆ G.nodes) {E : Finset (V × V)} (hE : E ∈ treeSets (G.subgraph U))
    {cuts : List (Cut V)} (hc : CutList G U E pop target eps cuts) {c : Cut V} (hcm : c ∈ cuts) :
    c.subset ⊆ U ∧ c.subset.Nonempty ∧ (U \ c.subset).Nonempty ∧ 0 < (seamOf G c.subset (U \ c.subset)).card := by
  obtain ⟨hs, ht⟩ := (mem_treeSets hU).1 hE
  obtain ⟨hbal, hside⟩ := hc.sound c hcm
  have hadj := hbal.1.symm
  obtain ⟨X, hX, hX'⟩ := side_compl ht hadj
  have hXe := hX.unique hside
  have hm := ht.wf.mem_of_adj hadj
  have h1 : c.edge.2 ∈ c.subset := (hside _).2 ⟨hm.1, Relation.ReflTransGen.refl⟩
  have h2 : c.edge.1 ∈ U \ c.subset := by
    have := (hX' c.edge.1).2 ⟨hm.2, Relation.ReflTransGen.refl⟩
    rw [hXe] at this
    exact this
  refine ⟨fun x hx => ((hside x).1 hx).1, ⟨_, h1⟩, ⟨_, h2⟩, Finset.card_pos.2 ?_⟩
  rcases hadj with h | h
  · exact ⟨_, mem_seamOf.2 ⟨(hs _ h).1, .inl ⟨h1, h2⟩⟩⟩
  · exact ⟨_, mem_seamOf.2 ⟨(hs _ h).1, .inr ⟨h2, h1⟩⟩⟩

/-- the choice among the cuts of a tree -/
theorem cuts_value (h : RevSetup N bound G a Q pop target eps) {pair pq : P × P} (hpair : pair = pq ∨ pair = (pq.2, pq.1)) (hne : pq.1 ≠ pq.2)
    {s t : Finset V} (hs : a.parts.get? pq.1 = some s) (ht : a.parts.get? pq.2 = some t) {E : Finset (V × V)}
    (hE : E ∈ treeSets (G.subgraph (s ∪ t))) {cuts : List (Cut V)} (hc : CutList G (s ∪ t) E pop target eps cuts) (L : ℕ) (hL : 2 ≤ L) :
    avg N L (fun w => hit a Q (revCuts (uniRand N) bound G a pair pq (s ∪ t) cuts w).1) =
      (cuts.map (fun c => if (a.plan \ {s, t}) ∪ {c.subset, (s ∪ t) \ c.subset} = Q then
        (cuts.length : ℚ) / (bound * (seamOf G c.subset ((s ∪ t) \ c.subset)).card) else 0)).sum / cuts.length := by
  have hU : s ∪ t ⊆ G.nodes := Finset.union_subset (h.sub hs) (h.sub ht)
  by_cases hcuts : cuts = []
  · subst hcuts
    unfold revCuts
    rw [if_pos rfl]
    have : ∀ w : Tape, hit a Q ((pure none : M Tape (Option (Dict V P))) w).1 = 0 := fun w => h.hit_none
    rw [avg_congr N L this, avg_const h.pos]
    simp
  · obtain ⟨L, rfl⟩ : ∃ L', L = L' + 1 := ⟨L - 1, by omega⟩
    have hlen : cuts.length ≤ bound := (length_cuts_le hc.nodup (fun c hcm => (hc.sound c hcm).1)).trans (h.bounded _ hU E hE)
    have hpos : 0 < cuts.length := List.length_pos_iff.2 hcuts
    obtain ⟨c0, hc0⟩ := List.exists_mem_of_ne_nil _ hcuts
    have hedge : 0 < G.edges.card := by
      have h1 := (hc.split h.wf hU hE hc0).2.2.2
      exact h1.trans_le (Finset.card_le_card (Finset.filter_subset _ _))
    unfold revCuts
    rw [if_neg hcuts, avg_choice h.pos L cuts hcuts (h.dvd3 hpos ?_)]
    · congr 2
      refine List.map_congr_left (fun c hcm => ?_)
      obtain ⟨k1, -, -, k4⟩ := hc.split h.wf hU hE hcm
      exact cut_value h hpair hne hs ht c k1 hpos hlen k4 L (by omega)
    · exact hlen.trans (Nat.le_mul_of_pos_right bound hedge)

theorem sum_map_ite {α : Type} (l : List α) (p : α → Prop) [DecidablePred p] (x : ℚ) :
    (l.map (fun y => if p y then x else 0)).sum = (l.filter p).length * x := by
  induction l with
  | nil => simp
  | cons y l ih =>
    rw [List.map_cons, List.sum_cons, ih, List.filter_cons]
    by_cases hy : p y
    · rw [if_pos hy, if_pos (decide_eq_true hy), List.length_cons]
      push_cast
      ring
    · rw [if_neg hy, if_neg (by simpa using hy), zero_add]

/-- the balance function on a tree of three or more nodes -/
theorem tree_cuts {U : Finset V} (hU : U ⊆ G.nodes) {E : Finset (V × V)} (hE : E ∈ treeSets (G.subgraph U)) (hN : 0 < N) (h3 : 3 ≤ U.card)
    (hb : (balancedEdges U E pop target eps).card ≤ bound) (w : Tape) :
    ∃ cuts w', boundedBalance bound (memoBalance (uniRand N) false) (PopGraph.init U ⟨U, E⟩ (fun _ _ => none) pop target eps) w = (.ok cuts, w') ∧
      CutList G U E pop target eps cuts := by
  obtain ⟨-, ht⟩ := (mem_treeSets hU).1 hE
  obtain ⟨cuts, w', h1, h2, h3, h4⟩ := C32_memoization (T := ⟨U, E⟩) ht h3 (uniRand N) (uniRand_valid hN) (fun _ _ => none) pop target eps
    (fuel := 2 * U.card) (le_refl _) w
  have hlen := length_cuts_le h2 (fun c hc => (h3 c hc).1)
  refine ⟨cuts, w', ?_, h2, h3, h4⟩
  have h1' : memoBalance (uniRand N) false (PopGraph.init U ⟨U, E⟩ (fun _ _ => none) pop target eps) w = (.ok cuts, w') := h1
  unfold boundedBalance
  show M.bind _ _ w = _
  unfold M.bind
  rw [h1']
  show (if (cuts.length : ℤ) > bound then M.raise .reversibilityError else pure cuts : M Tape _) w' = _
  rw [if_neg]
  · rfl
  · have : (cuts.length : ℤ) ≤ bound := by exact_mod_cast hlen.trans hb
    omega

theorem draws_bounded (N bound : ℕ) (h : PopGraph V) :
    Draws (1 + 2 * h.graph.nodes.card) (boundedBalance bound (memoBalance (uniRand N) false) h) := by
  unfold boundedBalance memoBalance
  refine (draws_memoization N (2 * h.graph.nodes.card) h false).bind (j := 0) (fun cuts => ?_)
  split_ifs
  · exact .done (.error _) (fun _ => rfl)
  · exact draws_pure _ _

/-- a tree, when the two plans differ in the merged districts -/
theorem tree_value (h : RevSetup N bound G a Q pop target eps) {pair pq : P × P} (hpair : pair = pq ∨ pair = (pq.2, pq.1)) (hne : pq.1 ≠ pq.2)
    {s t : Finset V} (hs : a.parts.get? pq.1 = some s) (ht : a.parts.get? pq.2 = some t) {A B : Finset V} (hAB : A ≠ B)
    (hD1 : a.plan \ Q = {s, t}) (hD2 : Q \ a.plan = {A, B}) {E : Finset (V × V)}
    (hE : E ∈ treeSets (G.subgraph (s ∪ t))) (L : ℕ) (hL : 3 + 2 * (s ∪ t).card ≤ L) :
    avg N L (fun w => hit a Q (revTree (uniRand N) (memoBalance (uniRand N) false) bound G a pop target eps pair pq (s ∪ t)
        ⟨⟨s ∪ t, E⟩, fun _ _ => none⟩ w).1) =
      if (E ∩ seamOf G A B).card = 1 then 1 / ((bound : ℚ) * (seamOf G A B).card) else 0 := by
  have hU : s ∪ t ⊆ G.nodes := Finset.union_subset (h.sub hs) (h.sub ht)
  have hst : s ≠ t := fun e => hne (label_unique h.coherent h.contiguous hs (e ▸ ht))
  obtain ⟨hunion, hdis, hA0, hB0, h3⟩ := two_parts h.isPart h.part hD1 hD2 hAB
  have hAQ : A ∈ Q := (Finset.mem_sdiff.1 (by rw [hD2]; simp : A ∈ Q \ a.plan)).1
  have hBQ : B ∈ Q := (Finset.mem_sdiff.1 (by rw [hD2]; simp : B ∈ Q \ a.plan)).1
  have hA : A ⊆ G.nodes := fun x hx => (h.part.cover x).2 ⟨A, hAQ, hx⟩
  have hB : B ⊆ G.nodes := fun x hx => (h.part.cover x).2 ⟨B, hBQ, hx⟩
  have hs' : s ∈ a.plan := (mem_plan h.coherent).2 ⟨_, hs⟩
  have ht' : t ∈ a.plan := (mem_plan h.coherent).2 ⟨_, ht⟩
  unfold revTree
  refine avg_bind_const h.pos (draws_bounded N bound _) 2 L (by show 1 + 2 * (s ∪ t).card + 2 ≤ L; omega) ?_ ?_
  · intro w w' cuts hcuts L' hL'
    obtain ⟨cuts', w'', k1, hc⟩ := tree_cuts hU hE h.pos (h3 hst) (h.bounded _ hU E hE) w
    rw [k1] at hcuts
    cases hcuts
    rw [cuts_value h hpair hne hs ht hE hc L' hL']
    have hmatch : ∀ c ∈ cuts, ((a.plan \ {s, t}) ∪ {c.subset, (s ∪ t) \ c.subset} = Q ↔ (c.subset = A ∨ c.subset = B)) := by
      intro c hcm
      obtain ⟨m1, m2, m3, -⟩ := hc.split h.wf hU hE hcm
      rw [replaced_iff h.isPart h.ne hs' ht' (Finset.union_sdiff_of_subset m1) Finset.disjoint_sdiff m2 m3]
      rw [hD2]
      constructor
      · rintro ⟨-, he⟩
        have : c.subset ∈ ({A, B} : Finset (Finset V)) := by rw [he]; simp
        simpa using this
      · intro hm
        refine ⟨hD1, ?_⟩
        rw [← hunion]
        rcases hm with hm | hm
        · rw [hm, Finset.union_sdiff_cancel_left hdis]
        · rw [hm, Finset.union_sdiff_cancel_right hdis, Finset.pair_comm]
    have hseam : ∀ c ∈ cuts, (c.subset = A ∨ c.subset = B) → seamOf G c.subset ((s ∪ t) \ c.subset) = seamOf G A B := by
      intro c _ hm
      rw [← hunion]
      rcases hm with hm | hm
      · rw [hm, Finset.union_sdiff_cancel_left hdis]
      · rw [hm, Finset.union_sdiff_cancel_right hdis, seamOf_comm]
    have hmap : cuts.map (fun c => if (a.plan \ {s, t}) ∪ {c.subset, (s ∪ t) \ c.subset} = Q then
        (cuts.length : ℚ) / (bound * (seamOf G c.subset ((s ∪ t) \ c.subset)).card) else 0) =
        cuts.map (fun c => if c.subset = A ∨ c.subset = B then (cuts.length : ℚ) / (bound * (seamOf G A B).card) else 0) := by
      refine List.map_congr_left (fun c hcm => ?_)
      by_cases hm : c.subset = A ∨ c.subset = B
      · rw [if_pos hm, if_pos ((hmatch c hcm).2 hm), hseam c hcm hm]
      · rw [if_neg hm, if_neg (fun h' => hm ((hmatch c hcm).1 h'))]
    have hE' := hE
    rw [← hunion] at hE'
    have hc' := hc
    rw [← hunion] at hc'
    have hcount := count_cuts h.wf hdis hA hB hA0 hB0 (h.near A hAQ) (h.near B hBQ) hE' hc'.nodup hc'.sound hc'.all
    rw [hmap, sum_map_ite, hcount]
    by_cases h1 : (E ∩ seamOf G A B).card = 1
    · rw [if_pos h1] at hcount ⊢
      rw [if_pos h1]
      have hn : (cuts.length : ℚ) ≠ 0 := by
        have : 0 < cuts.length := by
          refine Nat.lt_of_lt_of_le (?_ : 0 < (cuts.filter (fun c => c.subset = A ∨ c.subset = B)).length) (List.length_filter_le _ _)
          rw [hcount]; exact Nat.one_pos
        exact_mod_cast this.ne'
      push_cast
      rw [one_mul, div_right_comm, div_self hn]
    · rw [if_neg h1, if_neg h1]
      simp
  · intro w w' e he
    obtain ⟨cuts', w'', k1, -⟩ := tree_cuts hU hE h.pos (h3 hst) (h.bounded _ hU E hE) w
    rw [k1] at he
    cases he

/-- a tree, when the two plans differ elsewhere -/
theorem tree_value_zero (h : RevSetup N bound G a Q pop target eps) {pair pq : P × P} (hpair : pair = pq ∨ pair = (pq.2, pq.1)) (hne : pq.1 ≠ pq.2)
    {s t : Finset V} (hs : a.parts.get? pq.1 = some s) (ht : a.parts.get? pq.2 = some t)
    (hno : ¬ (a.plan \ Q = {s, t} ∧ (Q \ a.plan).card = 2)) {E : Finset (V × V)}
    (hE : E ∈ treeSets (G.subgraph (s ∪ t))) (L : ℕ) (hL : 3 + 2 * (s ∪ t).card ≤ L) :
    avg N L (fun w => hit a Q (revTree (uniRand N) (memoBalance (uniRand N) false) bound G a pop target eps pair pq (s ∪ t)
        ⟨⟨s ∪ t, E⟩, fun _ _ => none⟩ w).1) = 0 := by
  have hU : s ∪ t ⊆ G.nodes := Finset.union_subset (h.sub hs) (h.sub ht)
  have hs' : s ∈ a.plan := (mem_plan h.coherent).2 ⟨_, hs⟩
  have ht' : t ∈ a.plan := (mem_plan h.coherent).2 ⟨_, ht⟩
  unfold revTree
  refine avg_bind_const h.pos (draws_bounded N bound _) 2 L (by show 1 + 2 * (s ∪ t).card + 2 ≤ L; omega) ?_ (fun _ _ _ _ => rfl)
  intro w w' cuts hcuts L' hL'
  by_cases h3 : 3 ≤ (s ∪ t).card
  · obtain ⟨cuts', w'', k1, hc⟩ := tree_cuts hU hE h.pos h3 (h.bounded _ hU E hE) w
    rw [k1] at hcuts
    cases hcuts
    rw [cuts_value h hpair hne hs ht hE hc L' hL']
    have hmap : cuts.map (fun c => if (a.plan \ {s, t}) ∪ {c.subset, (s ∪ t) \ c.subset} = Q then
        (cuts.length : ℚ) / (bound * (seamOf G c.subset ((s ∪ t) \ c.subset)).card) else 0) = cuts.map (fun _ => (0 : ℚ)) := by
      refine List.map_congr_left (fun c hcm => ?_)
      rw [if_neg]
      intro hq
      obtain ⟨m1, m2, m3, -⟩ := hc.split h.wf hU hE hcm
      rw [replaced_iff h.isPart h.ne hs' ht' (Finset.union_sdiff_of_subset m1) Finset.disjoint_sdiff m2 m3] at hq
      refine hno ⟨hq.1, ?_⟩
      rw [hq.2, Finset.card_pair]
      intro he
      obtain ⟨x, hx⟩ := m2
      have hx' := hx
      rw [he] at hx'
      exact (Finset.mem_sdiff.1 hx').2 hx
    rw [hmap]
    simp
  · exfalso
    obtain ⟨-, hT⟩ := (mem_treeSets hU).1 hE
    obtain ⟨-, w2, k⟩ := C31_two_nodes (T := ⟨s ∪ t, E⟩) hT (by show (s ∪ t).card ≤ 2; omega) (uniRand N) (uniRand_valid h.pos) (fun _ _ => none)
      pop target eps false (2 * (s ∪ t).card) w
    have := (boundedBalance_eq hcuts).1
    have k' : memoBalance (uniRand N) false (PopGraph.init (s ∪ t) ⟨s ∪ t, E⟩ (fun _ _ => none) pop target eps) w = (.error .indexError, w2) := k
    simp only at this
    rw [k'] at this
    cases this

/-- the value of a pair of districts in which the plans differ -/
noncomputable def pairValue (bound : ℕ) (G : Graph V) (a : Assignment V P) (Q : Finset (Finset V)) : ℚ :=
  if (a.plan \ Q).card = 2 ∧ (Q \ a.plan).card = 2 then
    ((∏ X ∈ Q \ a.plan, numTrees G X : ℕ) : ℚ) / (bound * numTrees G ((a.plan \ Q).biUnion id)) else 0

/-- the average over the spanning trees of the merged districts -/
theorem edge_sum (h : RevSetup N bound G a Q pop target eps) {pair pq : P × P} (hpair : pair = pq ∨ pair = (pq.2, pq.1)) (hne : pq.1 ≠ pq.2)
    {s t : Finset V} (hs : a.parts.get? pq.1 = some s) (ht : a.parts.get? pq.2 = some t) (hconn : ConnectedOn G (s ∪ t)) (L : ℕ)
    (hL : 3 + 2 * (s ∪ t).card ≤ L) :
    (∑ E ∈ treeSets (G.subgraph (s ∪ t)), avg N L (fun w => hit a Q (revTree (uniRand N) (memoBalance (uniRand N) false) bound G a
        pop target eps pair pq (s ∪ t) ⟨⟨s ∪ t, E⟩, fun _ _ => none⟩ w).1)) / (numTrees G (s ∪ t) : ℚ) =
      if a.plan \ Q = {s, t} then pairValue bound G a Q else 0 := by
  have hU : s ∪ t ⊆ G.nodes := Finset.union_subset (h.sub hs) (h.sub ht)
  have hst : s ≠ t := fun e => hne (label_unique h.coherent h.contiguous hs (e ▸ ht))
  have hτpos : 0 < numTrees G (s ∪ t) :=
    Finset.card_pos.2 (exists_tree (h.wf.subgraph (s ∪ t)) ((connectedOn_subgraph (G := G) hU).2 hconn))
  by_cases hmatch : a.plan \ Q = {s, t} ∧ (Q \ a.plan).card = 2
  · obtain ⟨hD1, hD2c⟩ := hmatch
    obtain ⟨A, B, hAB, hD2⟩ := Finset.card_eq_two.1 hD2c
    obtain ⟨hunion, hdis, hA0, hB0, -⟩ := two_parts h.isPart h.part hD1 hD2 hAB
    have hAQ : A ∈ Q := (Finset.mem_sdiff.1 (by rw [hD2]; simp : A ∈ Q \ a.plan)).1
    have hBQ : B ∈ Q := (Finset.mem_sdiff.1 (by rw [hD2]; simp : B ∈ Q \ a.plan)).1
    have hA : A ⊆ G.nodes := fun x hx => (h.part.cover x).2 ⟨A, hAQ, hx⟩
    have hB : B ⊆ G.nodes := fun x hx => (h.part.cover x).2 ⟨B, hBQ, hx⟩
    have hsum : ∑ E ∈ treeSets (G.subgraph (s ∪ t)), avg N L (fun w => hit a Q (revTree (uniRand N) (memoBalance (uniRand N) false) bound G a
        pop target eps pair pq (s ∪ t) ⟨⟨s ∪ t, E⟩, fun _ _ => none⟩ w).1) =
        ∑ E ∈ treeSets (G.subgraph (s ∪ t)), if (E ∩ seamOf G A B).card = 1 then 1 / ((bound : ℚ) * (seamOf G A B).card) else 0 :=
      Finset.sum_congr rfl (fun E hE => tree_value h hpair hne hs ht hAB hD1 hD2 hE L (by omega))
    have hcard := card_trees_one_seam h.wf hdis hA hB hA0 hB0
    rw [hunion] at hcard
    rw [hsum, ← Finset.sum_filter, Finset.sum_const, hcard, if_pos hD1]
    unfold pairValue
    rw [if_pos ⟨by rw [hD1, Finset.card_pair hst], hD2c⟩, hD1, hD2, Finset.prod_pair hAB]
    have hbi : ({s, t} : Finset (Finset V)).biUnion id = s ∪ t := by simp
    rw [hbi]
    have hseam : ((seamOf G A B).card : ℚ) ≠ 0 := by
      have hc' : ConnectedOn G (A ∪ B) := by rw [hunion]; exact hconn
      obtain ⟨x, hx, y, hy, hxy⟩ := exists_edge_between hc' hA0 hB0 hdis
      have : 0 < (seamOf G A B).card := by
        rw [Finset.card_pos]
        rcases hxy with h' | h'
        · exact ⟨_, mem_seamOf.2 ⟨h', .inl ⟨hx, hy⟩⟩⟩
        · exact ⟨_, mem_seamOf.2 ⟨h', .inr ⟨hy, hx⟩⟩⟩
      exact_mod_cast this.ne'
    have hτ : (numTrees G (s ∪ t) : ℚ) ≠ 0 := by exact_mod_cast hτpos.ne'
    rw [nsmul_eq_mul]
    push_cast
    by_cases hb0 : (bound : ℚ) = 0
    · rw [hb0]; simp
    · field_simp
  · have hsum : ∑ E ∈ treeSets (G.subgraph (s ∪ t)), avg N L (fun w => hit a Q (revTree (uniRand N) (memoBalance (uniRand N) false) bound G a
        pop target eps pair pq (s ∪ t) ⟨⟨s ∪ t, E⟩, fun _ _ => none⟩ w).1) = 0 :=
      Finset.sum_eq_zero (fun E hE => tree_value_zero h hpair hne hs ht hmatch hE L (by omega))
    rw [hsum, zero_div]
    by_cases hD1 : a.plan \ Q = {s, t}
    · rw [if_pos hD1]
      unfold pairValue
      rw [if_neg (fun h' => hmatch ⟨hD1, h'.2⟩)]
    · rw [if_neg hD1]

/-- an edge of the seam: all of them lead to the same probability -/
theorem edge_value (h : RevSetup N bound G a Q pop target eps) {pair : P × P} (hne : pair.1 ≠ pair.2) {s t : Finset V}
    (hs : a.parts.get? pair.1 = some s) (ht : a.parts.get? pair.2 = some t) {edge : V × V} (he : edge ∈ distPairEdges G a.mapping pair.1 pair.2)
    (L : ℕ) (hL : 4 + 2 * G.nodes.card ≤ L) :
    avg N L (fun w => hit a Q (revEdge (uniRand N) (uniformSpan N) (memoBalance (uniRand N) false) bound G a pop target eps pair edge w).1) =
      if a.plan \ Q = {s, t} then pairValue bound G a Q else 0 := by
  -- the labels of the ends of the edge are those of the pair, in one of the two orders
  obtain ⟨heG, hlab⟩ := mem_distPairEdges.1 he
  obtain ⟨pq, hpq⟩ := endLabels_total h.wf h.covers (u := edge.1) (v := edge.2) (.inl heG)
  obtain ⟨e1, e2⟩ := endLabels_ok hpq
  simp only at e1 e2
  have hpair : pair = pq ∨ pair = (pq.2, pq.1) := by
    rw [e1, e2] at hlab
    simp only [Option.some.injEq] at hlab
    rcases hlab with ⟨k1, k2⟩ | ⟨k1, k2⟩
    · exact .inl (Prod.ext k1.symm k2.symm)
    · exact .inr (Prod.ext k2.symm k1.symm)
  have main : ∀ {s t : Finset V}, pq.1 ≠ pq.2 → a.parts.get? pq.1 = some s → a.parts.get? pq.2 = some t →
      avg N L (fun w => hit a Q (revEdge (uniRand N) (uniformSpan N) (memoBalance (uniRand N) false) bound G a pop target eps pair edge w).1) =
      if a.plan \ Q = {s, t} then pairValue bound G a Q else 0 := by
    intro s t hne hs ht
    have hU : s ∪ t ⊆ G.nodes := Finset.union_subset (h.sub hs) (h.sub ht)
    have hUc : (s ∪ t).card ≤ G.nodes.card := Finset.card_le_card hU
    have hst : s ≠ t := fun e => hne (label_unique h.coherent h.contiguous hs (e ▸ ht))
    have hus : edge.1 ∈ s := (h.coherent.agree _ s hs _).2 e1
    have hvt : edge.2 ∈ t := (h.coherent.agree _ t ht _).2 e2
    have hconn : ConnectedOn G (s ∪ t) := connectedOn_union (h.contiguous _ s hs) (h.contiguous _ t ht) hus hvt (.inl heG)
    have hmer : mergedNodes a pq.1 pq.2 = .ok (s ∪ t) := by
      unfold mergedNodes
      rw [Dict.get_eq_ok_iff.2 hs, Dict.get_eq_ok_iff.2 ht]
      rfl
    have hn : (G.subgraph (s ∪ t)).nodes = s ∪ t := subgraph_nodes hU
    obtain ⟨L, rfl⟩ : ∃ L', L = L' + 1 := ⟨L - 1, by omega⟩
    have hprog : revEdge (uniRand N) (uniformSpan N) (memoBalance (uniRand N) false) bound G a pop target eps pair edge =
        ((uniRand N).choice (treeSets (G.subgraph (s ∪ t))).toList >>= fun E =>
          revTree (uniRand N) (memoBalance (uniRand N) false) bound G a pop target eps pair pq (s ∪ t) ⟨⟨s ∪ t, E⟩, fun _ _ => none⟩) := by
      unfold revEdge
      rw [hpq]
      show (M.lift (mergedNodes a pq.1 pq.2) >>= _ : M Tape _) = _
      rw [hmer]
      show (uniformSpan N (G.subgraph (s ∪ t)) >>= _ : M Tape _) = _
      unfold uniformSpan
      rw [M.bind_assoc', hn]
      rfl
    have htree : (treeSets (G.subgraph (s ∪ t))).Nonempty := by
      exact exists_tree (h.wf.subgraph (s ∪ t)) ((connectedOn_subgraph (G := G) hU).2 hconn)
    have hτpos : 0 < numTrees G (s ∪ t) := Finset.card_pos.2 htree
    have hτle : numTrees G (s ∪ t) ≤ 2 ^ G.edges.card := by
      classical
      unfold numTrees treeSets
      refine (Finset.card_le_card (Finset.filter_subset _ _)).trans ?_
      rw [Finset.card_powerset]
      exact Nat.pow_le_pow_right (by omega) (Finset.card_le_card (Finset.filter_subset _ _))
    rw [hprog, avg_choice h.pos L _ (by simpa using htree.ne_empty) (h.dvd2 (by rw [Finset.length_toList]; exact hτpos)
      (by rw [Finset.length_toList]; exact hτle))]
    rw [Finset.length_toList, Finset.sum_map_toList]
    exact edge_sum h hpair hne hs ht hconn L (by omega)
  rcases hpair with hp | hp
  · rw [hp] at hne hs ht
    exact main hne hs ht
  · have hp1 : pair.1 = pq.2 := by rw [hp]
    have hp2 : pair.2 = pq.1 := by rw [hp]
    rw [hp1, hp2] at hne
    rw [hp1] at hs
    rw [hp2] at ht
    rw [main hne.symm ht hs, Finset.pair_comm]

/-- averages of lists that are close term by term -/
theorem list_average_close {α : Type} {l : List α} (hl : l ≠ []) {f g : α → ℚ} {δ : ℚ} (h : ∀ x ∈ l, |f x - g x| ≤ δ) :
    |(l.map f).sum / l.length - (l.map g).sum / l.length| ≤ δ := by
  have key : ∀ l : List α, (∀ x ∈ l, |f x - g x| ≤ δ) → |(l.map f).sum - (l.map g).sum| ≤ l.length * δ := by
    intro l
    induction l with
    | nil => intro _; simp
    | cons x l ih =>
      intro h
      have h1 := abs_le.1 (h x (List.mem_cons_self ..))
      have h2 := abs_le.1 (ih (fun y hy => h y (List.mem_cons_of_mem _ hy)))
      rw [List.map_cons, List.map_cons, List.sum_cons, List.sum_cons, List.length_cons]
      push_cast
      rw [abs_le]
      constructor <;> linarith
  have hpos : (0 : ℚ) < l.length := by exact_mod_cast List.length_pos_iff.2 hl
  rw [← sub_div, abs_div, abs_of_pos hpos, div_le_iff₀ hpos, mul_comm]
  exact key l h

/-- a pair of districts, when the edges of the seam lead to about the same probability -/
theorem pair_close (h : RevSetup N bound G a Q pop target eps) (span : Graph V → M Tape (WTree V)) {pair : P × P} {s t : Finset V}
    (hs : a.parts.get? pair.1 = some s) (ht : a.parts.get? pair.2 = some t) (L : ℕ) {δ : ℚ} (hδ : 0 ≤ δ)
    (hedge : pair.1 ≠ pair.2 → ∀ edge ∈ distPairEdges G a.mapping pair.1 pair.2,
      |avg N L (fun w => hit a Q (revEdge (uniRand N) span (memoBalance (uniRand N) false) bound G a pop target eps pair edge w).1) -
        if a.plan \ Q = {s, t} then pairValue bound G a Q else 0| ≤ δ) :
    |avg N (L + 1) (fun w => hit a Q (revPair (uniRand N) span (memoBalance (uniRand N) false) bound G a pop target eps pair w).1) -
      if a.plan \ Q = {s, t} then pairValue bound G a Q else 0| ≤ δ := by
  have hnone : avg N (L + 1) (fun w => hit a Q ((pure none : M Tape (Option (Dict V P))) w).1) = 0 := by
    have : ∀ w : Tape, hit a Q ((pure none : M Tape (Option (Dict V P))) w).1 = 0 := fun w => h.hit_none
    rw [avg_congr N (L + 1) this, avg_const h.pos]
  unfold revPair
  by_cases hself : pair.1 = pair.2 ∨ distPairEdges G a.mapping pair.1 pair.2 = ∅
  · rw [if_pos hself, hnone]
    suffices hz : (if a.plan \ Q = {s, t} then pairValue bound G a Q else 0) = 0 by rw [hz]; simpa using hδ
    symm
    split_ifs with hD1
    · symm
      unfold pairValue
      by_cases hst : s = t
      · rw [if_neg]
        rintro ⟨h1, -⟩
        rw [hD1, hst] at h1
        simp at h1
      · have hne : pair.1 ≠ pair.2 := by
          intro e
          rw [e, ht] at hs
          exact hst (Option.some.inj hs).symm
        have hempty := hself.resolve_left hne
        split_ifs with h2
        · have hU : s ∪ t ⊆ G.nodes := Finset.union_subset (h.sub hs) (h.sub ht)
          have hd : Disjoint s t := by
            rw [Finset.disjoint_left]
            intro x hx hx'
            exact hst (h.isPart.disj s ((mem_plan h.coherent).2 ⟨_, hs⟩) t ((mem_plan h.coherent).2 ⟨_, ht⟩) x hx hx')
          have hzero : numTrees G (s ∪ t) = 0 := by
            unfold numTrees
            rw [Finset.card_eq_zero, Finset.eq_empty_iff_forall_notMem]
            intro E hE
            obtain ⟨k1, k2⟩ := (mem_treeSets hU).1 hE
            obtain ⟨x, hx, y, hy, hxy⟩ := exists_edge_between k2.conn (h.contiguous _ _ hs).1 (h.contiguous _ _ ht).1 hd
            have hx' := (h.coherent.agree _ s hs x).1 hx
            have hy' := (h.coherent.agree _ t ht y).1 hy
            have : (distPairEdges G a.mapping pair.1 pair.2).Nonempty := by
              rcases hxy with h' | h'
              · exact ⟨_, mem_distPairEdges.2 ⟨(k1 _ h').1, .inl ⟨hx', hy'⟩⟩⟩
              · exact ⟨_, mem_distPairEdges.2 ⟨(k1 _ h').1, .inr ⟨hy', hx'⟩⟩⟩
            exact this.ne_empty hempty
          have hbi : ({s, t} : Finset (Finset V)).biUnion id = s ∪ t := by simp
          rw [hD1, hbi, hzero]
          simp
        · rfl
    · rfl
  · rw [if_neg hself]
    rw [not_or] at hself
    have hlen : (iterE (distPairEdges G a.mapping pair.1 pair.2)).length = (distPairEdges G a.mapping pair.1 pair.2).card := length_iterE _
    have hpos : 0 < (distPairEdges G a.mapping pair.1 pair.2).card := Finset.card_pos.2 (Finset.nonempty_iff_ne_empty.2 hself.2)
    have hnil : iterE (distPairEdges G a.mapping pair.1 pair.2) ≠ [] := by
      intro e
      rw [e] at hlen
      simp at hlen
      omega
    have hle : (distPairEdges G a.mapping pair.1 pair.2).card ≤ 2 ^ G.edges.card :=
      (Finset.card_le_card (Finset.filter_subset _ _)).trans (Nat.lt_two_pow_self).le
    rw [avg_choice h.pos L _ hnil (h.dvd2 (by rw [hlen]; exact hpos) (by rw [hlen]; exact hle))]
    have hconst : ((iterE (distPairEdges G a.mapping pair.1 pair.2)).map (fun _ => if a.plan \ Q = {s, t} then pairValue bound G a Q else 0)).sum /
        ((iterE (distPairEdges G a.mapping pair.1 pair.2)).length : ℚ) = if a.plan \ Q = {s, t} then pairValue bound G a Q else 0 := by
      rw [List.map_const', List.sum_replicate, hlen, nsmul_eq_mul]
      have : ((distPairEdges G a.mapping pair.1 pair.2).card : ℚ) ≠ 0 := by exact_mod_cast hpos.ne'
      field_simp
    have := list_average_close hnil (fun edge he => hedge hself.1 edge (mem_iterE.1 he))
    rw [hconst] at this
    exact this

/-- a pair of districts -/
theorem pair_value (h : RevSetup N bound G a Q pop target eps) {pair : P × P} {s t : Finset V}
    (hs : a.parts.get? pair.1 = some s) (ht : a.parts.get? pair.2 = some t) (L : ℕ) (hL : 5 + 2 * G.nodes.card ≤ L) :
    avg N L (fun w => hit a Q (revPair (uniRand N) (uniformSpan N) (memoBalance (uniRand N) false) bound G a pop target eps pair w).1) =
      if a.plan \ Q = {s, t} then pairValue bound G a Q else 0 := by
  obtain ⟨L, rfl⟩ : ∃ L', L = L' + 1 := ⟨L - 1, by omega⟩
  refine sub_eq_zero.1 (abs_nonpos_iff.1 (pair_close h (uniformSpan N) hs ht L (le_refl _) (fun hne edge he => ?_)))
  rw [edge_value h hne hs ht he L (by omega), sub_self, abs_zero]

theorem allPairs_eq (a : Assignment V P) :
    allPairs a = (a.parts.keys.insertionSort (· ≤ ·)).product (a.parts.keys.insertionSort (· ≤ ·)) := rfl

theorem length_allPairs (a : Assignment V P) : (allPairs a).length = a.parts.keys.length ^ 2 := by
  rw [allPairs_eq]
  show (_ ×ˢ _ : List (P × P)).length = _
  rw [List.length_product, List.length_insertionSort, sq]

theorem mem_allPairs {a : Assignment V P} {x : P × P} : x ∈ allPairs a ↔ x.1 ∈ a.parts.keys ∧ x.2 ∈ a.parts.keys := by
  rw [allPairs_eq]
  show x ∈ (_ ×ˢ _ : List (P × P)) ↔ _
  rw [List.mem_product, List.mem_insertionSort, List.mem_insertionSort]

theorem nodup_allPairs {a : Assignment V P} (ha : a.Coherent) : (allPairs a).Nodup := by
  rw [allPairs_eq]
  have : (a.parts.keys.insertionSort (· ≤ ·)).Nodup := (List.perm_insertionSort _ _).nodup_iff.2 ha.parts_wf
  exact this.product this

/-- the two orders of the pair of districts in which the plans differ -/
theorem count_pairs (h : RevSetup N bound G a Q pop target eps) (h2 : (a.plan \ Q).card = 2) :
    ((allPairs a).filter (fun x => a.plan \ Q = {a.partOf x.1, a.partOf x.2})).length = 2 := by
  obtain ⟨A, B, hAB, hD⟩ := Finset.card_eq_two.1 h2
  have hA : A ∈ a.plan := (Finset.mem_sdiff.1 (by rw [hD]; simp : A ∈ a.plan \ Q)).1
  have hB : B ∈ a.plan := (Finset.mem_sdiff.1 (by rw [hD]; simp : B ∈ a.plan \ Q)).1
  obtain ⟨p, hp⟩ := (mem_plan h.coherent).1 hA
  obtain ⟨q, hq⟩ := (mem_plan h.coherent).1 hB
  have hpq : p ≠ q := by
    rintro rfl
    rw [hp] at hq
    exact hAB (Option.some.inj hq)
  have hpo : a.partOf p = A := by unfold Assignment.partOf; rw [hp]; rfl
  have hqo : a.partOf q = B := by unfold Assignment.partOf; rw [hq]; rfl
  have hlab : ∀ x, x ∈ a.parts.keys → ∀ X, a.partOf x = X → a.parts.get? x = some X := by
    intro x hx X hX
    obtain ⟨Y, hY⟩ := Dict.mem_keys_iff.1 hx
    unfold Assignment.partOf at hX
    rw [hY] at hX ⊢
    rw [← hX]
    rfl
  have hset : ((allPairs a).filter (fun x => a.plan \ Q = {a.partOf x.1, a.partOf x.2})).toFinset = {(p, q), (q, p)} := by
    ext ⟨x, y⟩
    rw [List.mem_toFinset, List.mem_filter, decide_eq_true_eq, mem_allPairs, Finset.mem_insert, Finset.mem_singleton, hD]
    simp only [Prod.mk.injEq]
    constructor
    · rintro ⟨⟨hx, hy⟩, he⟩
      have hA' : A ∈ ({a.partOf x, a.partOf y} : Finset (Finset V)) := by rw [← he]; simp
      have hB' : B ∈ ({a.partOf x, a.partOf y} : Finset (Finset V)) := by rw [← he]; simp
      rw [Finset.mem_insert, Finset.mem_singleton] at hA' hB'
      rcases hA' with e1 | e1 <;> rcases hB' with e2 | e2
      · exact absurd (e1.trans e2.symm) hAB
      · exact .inl ⟨label_unique h.coherent h.contiguous (hlab x hx A e1.symm) hp, label_unique h.coherent h.contiguous (hlab y hy B e2.symm) hq⟩
      · exact .inr ⟨label_unique h.coherent h.contiguous (hlab x hx B e2.symm) hq, label_unique h.coherent h.contiguous (hlab y hy A e1.symm) hp⟩
      · exact absurd (e1.trans e2.symm) hAB
    · have hpk : p ∈ a.parts.keys := Dict.mem_keys_iff.2 ⟨A, hp⟩
      have hqk : q ∈ a.parts.keys := Dict.mem_keys_iff.2 ⟨B, hq⟩
      rintro (⟨rfl, rfl⟩ | ⟨rfl, rfl⟩)
      · exact ⟨⟨hpk, hqk⟩, by rw [hpo, hqo]⟩
      · exact ⟨⟨hqk, hpk⟩, by rw [hpo, hqo, Finset.pair_comm]⟩
  rw [← List.toFinset_card_of_nodup ((nodup_allPairs h.coherent).filter _), hset, Finset.card_pair]
  intro e
  exact hpq (Prod.mk.inj e).1

/-- the probability of a move with any spanning tree method -/
def transitionWith (span : Graph V → M Tape (WTree V)) (N L bound fuel : ℕ) (G : Graph V) (pop : V → ℚ) (target eps : ℚ) (a : Assignment V P)
    (Q : Finset (Finset V)) : ℚ :=
  prob N L (revFlips (uniRand N) span (memoBalance (uniRand N) false) bound false fuel G a pop target eps) (fun r => landsOn a Q r = true)

/-- the whole move, when the pairs of districts lead to about the right probabilities -/
theorem move_close (h : RevSetup N bound G a Q pop target eps) (span : Graph V → M Tape (WTree V)) {fuel : ℕ} (hf : 0 < fuel) (L : ℕ) {δ : ℚ}
    (hpair : ∀ pair s t, a.parts.get? pair.1 = some s → a.parts.get? pair.2 = some t →
      |avg N L (fun w => hit a Q (revPair (uniRand N) span (memoBalance (uniRand N) false) bound G a pop target eps pair w).1) -
        if a.plan \ Q = {s, t} then pairValue bound G a Q else 0| ≤ δ) :
    |transitionWith span N (L + 1) bound fuel G pop target eps a Q - 2 * pairValue bound G a Q / (a.parts.keys.length : ℚ) ^ 2| ≤ δ := by
  obtain ⟨f, rfl⟩ : ∃ f, fuel = f + 1 := ⟨fuel - 1, by omega⟩
  -- there is a district
  have hkeys : a.parts.keys ≠ [] := by
    intro e
    have hc := card_plan h.coherent h.contiguous
    rw [e, List.length_nil, Finset.card_eq_zero] at hc
    apply h.ne
    have hnodes : G.nodes = ∅ := by
      rw [Finset.eq_empty_iff_forall_notMem]
      intro x hx
      obtain ⟨X, hX, -⟩ := (h.isPart.cover x).1 hx
      rw [hc] at hX
      exact absurd hX (Finset.notMem_empty _)
    rw [hc]
    symm
    rw [Finset.eq_empty_iff_forall_notMem]
    intro X hX
    obtain ⟨x, hx⟩ := h.part.nonempty X hX
    have := (h.part.cover x).2 ⟨X, hX, hx⟩
    rw [hnodes] at this
    exact absurd this (Finset.notMem_empty _)
  have hk0 : 0 < a.parts.keys.length := List.length_pos_iff.2 hkeys
  have hkn : a.parts.keys.length ≤ G.nodes.card := by
    rw [← card_plan h.coherent h.contiguous]
    have hex : ∀ X ∈ a.plan, ∃ x, x ∈ X := fun X hX => h.isPart.nonempty X hX
    have : Nonempty V := by
      obtain ⟨p, hp⟩ := List.exists_mem_of_ne_nil _ hkeys
      obtain ⟨X, hX⟩ := Dict.mem_keys_iff.1 hp
      exact ⟨(h.contiguous p X hX).1.choose⟩
    choose! f hf' using hex
    refine Finset.card_le_card_of_injOn f ?_ ?_
    · intro X hX
      exact (h.isPart.cover _).2 ⟨X, hX, hf' X hX⟩
    · intro X hX Y hY e
      exact h.isPart.disj X hX Y hY (f X) (hf' X hX) (e ▸ hf' Y hY)
  have hval : ((allPairs a).map (fun pair => if a.plan \ Q = {a.partOf pair.1, a.partOf pair.2} then pairValue bound G a Q else 0)).sum /
      ((allPairs a).length : ℚ) = 2 * pairValue bound G a Q / (a.parts.keys.length : ℚ) ^ 2 := by
    rw [sum_map_ite, length_allPairs]
    by_cases h2 : (a.plan \ Q).card = 2
    · rw [count_pairs h h2]
      push_cast
      rfl
    · have : pairValue bound G a Q = 0 := by
        unfold pairValue
        rw [if_neg (fun h' => h2 h'.1)]
      rw [this, mul_zero, mul_zero, zero_div, zero_div]
  unfold transitionWith prob
  rw [revFlips_eq]
  show |avg N (L + 1) (fun w => hit a Q _) - _| ≤ _
  rw [avg_choice h.pos L _ (allPairs_ne_nil hkeys) (h.dvd1 (by rw [length_allPairs]; positivity)
    (by rw [length_allPairs]; exact Nat.pow_le_pow_left hkn 2)), ← hval]
  refine list_average_close (allPairs_ne_nil hkeys) (fun pair hp => ?_)
  obtain ⟨h1, h2⟩ := mem_allPairs.1 hp
  obtain ⟨s, hs⟩ := Dict.mem_keys_iff.1 h1
  obtain ⟨t, ht⟩ := Dict.mem_keys_iff.1 h2
  have e1 : a.partOf pair.1 = s := by unfold Assignment.partOf; rw [hs]; rfl
  have e2 : a.partOf pair.2 = t := by unfold Assignment.partOf; rw [ht]; rfl
  rw [e1, e2]
  exact hpair pair s t hs ht

/-- the whole move -/
theorem move_value (h : RevSetup N bound G a Q pop target eps) {fuel : ℕ} (hf : 0 < fuel) (L : ℕ) (hL : 6 + 2 * G.nodes.card ≤ L) :
    transition N L bound fuel G pop target eps a Q = 2 * pairValue bound G a Q / (a.parts.keys.length : ℚ) ^ 2 := by
  obtain ⟨L, rfl⟩ : ∃ L', L = L' + 1 := ⟨L - 1, by omega⟩
  refine sub_eq_zero.1 (abs_nonpos_iff.1 (move_close h (uniformSpan N) hf L (fun pair s t hs ht => ?_)))
  rw [pair_value h hs ht L (by omega), sub_self, abs_zero]

end values

/-! ### The theorems -/

/-- **C56** (transition probabilities) The probability that `reversible_recom` moves from the plan `a` to a different plan with districts `Q`, all within
`eps` of the target: it is positive only if the plans differ in two districts each, and then it is twice the number of pairs of spanning trees of
the two new districts, divided by the square of the number of districts, `M`, and the number of spanning trees of the merged districts.
`M` is at least the number of balanced edges of every spanning tree of a set of nodes. -/
theorem C56_transition_formula (G : Graph V) (hG : G.WF) (pop : V → ℚ) (target eps : ℚ) (bound : ℕ)
    (hbound : ∀ U ⊆ G.nodes, ∀ E ∈ treeSets (G.subgraph U), (balancedEdges U E pop target eps).card ≤ bound)
    (a : Assignment V P) (ha : a.Coherent) (hcov : a.Covers G.nodes) (hc : ContiguousPlan G a)
    (Q : Finset (Finset V)) (hQ : IsPartition G.nodes Q) (hnear : ∀ X ∈ Q, Near target eps (popOf pop X)) (hne : a.plan ≠ Q)
    (fuel : ℕ) (hf : 0 < fuel) (N : ℕ) (hN : 0 < N) (hdiv : (G.nodes.card ^ 2 + 2 ^ G.edges.card + bound * G.edges.card).factorial ∣ N)
    (L : ℕ) (hL : 6 + 2 * G.nodes.card ≤ L) :
    transition N L bound fuel G pop target eps a Q =
      if (a.plan \ Q).card = 2 ∧ (Q \ a.plan).card = 2 then
        2 * ((∏ X ∈ Q \ a.plan, numTrees G X : ℕ) : ℚ) / (a.plan.card ^ 2 * (bound * numTrees G ((a.plan \ Q).biUnion id))) else 0 := by
  have h : RevSetup N bound G a Q pop target eps := ⟨hG, hN, hdiv, hbound, ha, hcov, hc, hQ, hnear, hne⟩
  rw [move_value h hf L hL, card_plan ha hc]
  unfold pairValue
  split_ifs
  · rw [← mul_div_assoc, div_div, mul_comm (_ * _ : ℚ)]
  · simp

/-- **C56** (detailed balance) For two different plans whose districts are connected and within `eps` of the target, the probability of moving from
the one to the other, times the product of the numbers of spanning trees of the districts of the one, is the same in both directions. -/
theorem C56_detailed_balance (G : Graph V) (hG : G.WF) (pop : V → ℚ) (target eps : ℚ) (bound : ℕ)
    (hbound : ∀ U ⊆ G.nodes, ∀ E ∈ treeSets (G.subgraph U), (balancedEdges U E pop target eps).card ≤ bound)
    (a b : Assignment V P) (ha : a.Coherent) (hb : b.Coherent) (hcova : a.Covers G.nodes) (hcovb : b.Covers G.nodes)
    (hca : ContiguousPlan G a) (hcb : ContiguousPlan G b) (hneara : ∀ X ∈ a.plan, Near target eps (popOf pop X))
    (hnearb : ∀ X ∈ b.plan, Near target eps (popOf pop X)) (hne : a.plan ≠ b.plan)
    (fuel : ℕ) (hf : 0 < fuel) (N : ℕ) (hN : 0 < N) (hdiv : (G.nodes.card ^ 2 + 2 ^ G.edges.card + bound * G.edges.card).factorial ∣ N)
    (L : ℕ) (hL : 6 + 2 * G.nodes.card ≤ L) :
    transition N L bound fuel G pop target eps a b.plan * ((∏ X ∈ a.plan, numTrees G X : ℕ) : ℚ) =
      transition N L bound fuel G pop target eps b a.plan * ((∏ X ∈ b.plan, numTrees G X : ℕ) : ℚ) := by
  have pa := isPartition_plan ha hcova hca
  have pb := isPartition_plan hb hcovb hcb
  rw [C56_transition_formula G hG pop target eps bound hbound a ha hcova hca b.plan pb hnearb hne fuel hf N hN hdiv L hL,
    C56_transition_formula G hG pop target eps bound hbound b hb hcovb hcb a.plan pa hneara hne.symm fuel hf N hN hdiv L hL]
  by_cases h2 : (a.plan \ b.plan).card = 2 ∧ (b.plan \ a.plan).card = 2
  · rw [if_pos h2, if_pos h2.symm]
    have hcard : a.plan.card = b.plan.card := by
      have e1 := Finset.card_sdiff_add_card_inter a.plan b.plan
      have e2 := Finset.card_sdiff_add_card_inter b.plan a.plan
      rw [Finset.inter_comm] at e2
      omega
    have hsplit : ∀ A B : Finset (Finset V), (∏ X ∈ A, numTrees G X) = (∏ X ∈ A ∩ B, numTrees G X) * ∏ X ∈ A \ B, numTrees G X := by
      intro A B
      rw [← Finset.prod_inter_mul_prod_diff]
    rw [hsplit a.plan b.plan, hsplit b.plan a.plan, partition_diff pb pa, hcard, Finset.inter_comm b.plan a.plan]
    push_cast
    ring
  · rw [if_neg h2, if_neg (fun h => h2 h.symm)]
    simp

/-! ### A concrete case: the two plans of a square -/

/-- a cycle of four nodes -/
def ringGraph : Graph (Fin 4) := ⟨Finset.univ, {(0, 1), (1, 2), (2, 3), (0, 3)}⟩

/-- districts `{0, 1}` and `{2, 3}` -/
def ringA : Assignment (Fin 4) (Fin 2) := ⟨⟨[(0, {0, 1}), (1, {2, 3})]⟩, ⟨[(0, 0), (1, 0), (2, 1), (3, 1)]⟩⟩

/-- districts `{0, 3}` and `{1, 2}` -/
def ringB : Assignment (Fin 4) (Fin 2) := ⟨⟨[(0, {0, 3}), (1, {1, 2})]⟩, ⟨[(0, 0), (1, 1), (2, 1), (3, 0)]⟩⟩

theorem ring_coherent : ringA.Coherent ∧ ringB.Coherent := by
  constructor
  · refine ⟨by unfold Dict.WF; decide, by unfold Dict.WF; decide, ?_, by decide⟩
    intro p s hs
    fin_cases p <;> cases hs <;> decide
  · refine ⟨by unfold Dict.WF; decide, by unfold Dict.WF; decide, ?_, by decide⟩
    intro p s hs
    fin_cases p <;> cases hs <;> decide

theorem ring_contiguous : ContiguousPlan ringGraph ringA ∧ ContiguousPlan ringGraph ringB := by
  have hwf : ringGraph.WF := ⟨by decide, by decide, by decide⟩
  have h : ∀ s : Finset (Fin 4), nxIsConnected (ringGraph.subgraph s) = .ok true → ConnectedOn ringGraph s := by
    intro s hs
    rw [nxIsConnected_true (hwf.subgraph s)] at hs
    exact (connectedOn_subgraph (Finset.subset_univ s)).1 hs
  constructor
  · intro p s hs
    fin_cases p <;> cases hs <;> exact h _ (by decide +kernel)
  · intro p s hs
    fin_cases p <;> cases hs <;> exact h _ (by decide +kernel)

/-- a tree on at most four nodes has at most three edges -/
theorem ring_bound : ∀ U ⊆ ringGraph.nodes, ∀ E ∈ treeSets (ringGraph.subgraph U), (balancedEdges U E (fun _ => 1) 2 0).card ≤ 3 := by
  intro U hU E hE
  have h1 := ((mem_treeSets hU).1 hE).2.card
  have h2 : (balancedEdges U E (fun _ => 1) 2 0).card ≤ E.card := by
    classical
    exact Finset.card_le_card (Finset.filter_subset _ _)
  have h3 : U.card ≤ 4 := Finset.card_le_univ U
  simp only at h1
  omega

theorem ring_positive : ringGraph.WF ∧ ringA.Covers ringGraph.nodes ∧ ringB.Covers ringGraph.nodes ∧ ringA.plan ≠ ringB.plan ∧
    (∀ X ∈ ringA.plan, Near 2 0 (popOf (fun _ => 1) X)) ∧ (∀ X ∈ ringB.plan, Near 2 0 (popOf (fun _ => 1) X)) ∧
    0 < transition (Nat.factorial 44) 14 3 1 ringGraph (fun _ => 1) 2 0 ringA ringB.plan := by
  have hwf : ringGraph.WF := ⟨by decide, by decide, by decide⟩
  have nearA : ∀ X ∈ ringA.plan, Near 2 0 (popOf (fun _ => 1) X) := by decide +kernel
  have nearB : ∀ X ∈ ringB.plan, Near 2 0 (popOf (fun _ => 1) X) := by decide +kernel
  have hcovA : ringA.Covers ringGraph.nodes := by unfold Assignment.Covers; decide
  have hcovB : ringB.Covers ringGraph.nodes := by unfold Assignment.Covers; decide
  have hne : ringA.plan ≠ ringB.plan := by decide +kernel
  refine ⟨hwf, hcovA, hcovB, hne, nearA, nearB, ?_⟩
  rw [C56_transition_formula ringGraph hwf (fun _ => 1) 2 0 3 ring_bound ringA ring_coherent.1 hcovA ring_contiguous.1 ringB.plan
    (isPartition_plan ring_coherent.2 hcovB ring_contiguous.2) nearB hne 1 Nat.one_pos (Nat.factorial 44) (Nat.factorial_pos _)
    (by have : ringGraph.nodes.card ^ 2 + 2 ^ ringGraph.edges.card + 3 * ringGraph.edges.card = 44 := by decide
        rw [this]) 14 (by decide)]
  rw [if_pos (by decide +kernel)]
  have pos : ∀ s : Finset (Fin 4), nxIsConnected (ringGraph.subgraph s) = .ok true → 0 < numTrees ringGraph s := by
    intro s hs
    rw [nxIsConnected_true (hwf.subgraph s)] at hs
    exact Finset.card_pos.2 (exists_tree (hwf.subgraph s) hs)
  have h1 : 0 < ∏ X ∈ ringB.plan \ ringA.plan, numTrees ringGraph X := by
    refine Nat.pos_of_ne_zero (Finset.prod_ne_zero_iff.2 (fun X hX => Nat.pos_iff_ne_zero.1 ?_))
    have : ∀ X ∈ ringB.plan \ ringA.plan, nxIsConnected (ringGraph.subgraph X) = .ok true := by decide +kernel
    exact pos X (this X hX)
  have h2 : 0 < numTrees ringGraph ((ringA.plan \ ringB.plan).biUnion id) := pos _ (by decide +kernel)
  have h1' : (0 : ℚ) < ((∏ X ∈ ringB.plan \ ringA.plan, numTrees ringGraph X : ℕ) : ℚ) := by exact_mod_cast h1
  have h2' : (0 : ℚ) < (numTrees ringGraph ((ringA.plan \ ringB.plan).biUnion id) : ℚ) := by exact_mod_cast h2
  have h3 : (0 : ℚ) < (ringA.plan.card : ℚ) := by
    have : 0 < ringA.plan.card := by decide +kernel
    exact_mod_cast this
  positivity

/-- the hypotheses of C56 hold for the two plans of a square, and the move between them has a positive probability -/
example : ringA.plan ≠ ringB.plan ∧ 0 < transition (Nat.factorial 44) 14 3 1 ringGraph (fun _ => 1) 2 0 ringA ringB.plan :=
  ⟨ring_positive.2.2.2.1, ring_positive.2.2.2.2.2.2⟩

end GC

import Verif.Props.RecomChain
import Verif.Props.RecomFail

/-!
# `reversible_recom` (C40)
-/

set_option linter.unusedSectionVars false
set_option autoImplicit false

namespace GC

variable {V P S X : Type} [LinearOrder V] [LinearOrder P]

/-- A connected set split into two nonempty sets has an edge between them. -/
theorem exists_edge_between {G : Graph V} {s t : Finset V} (h : ConnectedOn G (s ∪ t)) (hs : s.Nonempty) (ht : t.Nonempty)
    (hd : Disjoint s t) : ∃ u ∈ s, ∃ v ∈ t, G.Adj u v := by
  obtain ⟨x, hx⟩ := hs
  obtain ⟨y, hy⟩ := ht
  by_contra hc
  push Not at hc
  have hr := h.2 x (Finset.mem_union_left _ hx) y (Finset.mem_union_right _ hy)
  have : y ∈ s := closed_of_reach (C := fun z => z ∈ s) hr hx (fun a b ha hab => by
    rcases Finset.mem_union.1 hab.2.2 with hb | hb
    · exact hb
    · exact absurd hab.1 (hc a ha b hb))
  exact (Finset.disjoint_left.1 hd) this hy

theorem mem_distPairEdges {G : Graph V} {m : Dict V P} {p q : P} {e : V × V} : e ∈ distPairEdges G m p q ↔
    e ∈ G.edges ∧ ((m.get? e.1 = some p ∧ m.get? e.2 = some q) ∨ (m.get? e.1 = some q ∧ m.get? e.2 = some p)) := by
  unfold distPairEdges; rw [Finset.mem_filter]

theorem distPairEdges_comm (G : Graph V) (m : Dict V P) (p q : P) : distPairEdges G m p q = distPairEdges G m q p := by
  ext e; rw [mem_distPairEdges, mem_distPairEdges]; tauto

/-- The two new districts of a recombination touch. -/
theorem Recombined.seam {G : Graph V} {pop : V → ℚ} {target eps : ℚ} {p q : P} {a b : Assignment V P} (ha : a.Coherent)
    (hb : b.Coherent) (hc : ContiguousPlan G a) (h : Recombined G pop target eps p q a b) :
    0 < (distPairEdges G b.mapping p q).card := by
  obtain ⟨s, hs, hsn, -⟩ := h.new p (.inl rfl)
  obtain ⟨t, ht, htn, -⟩ := h.new q (.inr rfl)
  obtain ⟨u, v, hadj, hu, hv⟩ := h.joined
  obtain ⟨s0, hs0⟩ := Dict.mem_keys_iff.1 (ha.complete _ _ hu)
  obtain ⟨t0, ht0⟩ := Dict.mem_keys_iff.1 (ha.complete _ _ hv)
  have hun : s ∪ t = s0 ∪ t0 := by
    ext x
    rw [Finset.mem_union, Finset.mem_union, hb.agree p s hs, hb.agree q t ht, ha.agree p s0 hs0, ha.agree q t0 ht0]
    constructor
    · intro hx
      by_contra hn
      rw [not_or] at hn
      rw [h.outside x hn.1 hn.2] at hx
      tauto
    · exact h.inside x
  have hconn := connectedOn_union (hc p s0 hs0) (hc q t0 ht0) ((ha.agree p s0 hs0 u).2 hu) ((ha.agree q t0 ht0 v).2 hv) hadj
  rw [← hun] at hconn
  have hdis : Disjoint s t := by
    rw [Finset.disjoint_left]
    intro x hx hx'
    rw [hb.agree p s hs] at hx
    rw [hb.agree q t ht, hx] at hx'
    exact h.ne (Option.some.inj hx')
  obtain ⟨x, hx, y, hy, hxy⟩ := exists_edge_between hconn hsn htn hdis
  rw [hb.agree p s hs] at hx
  rw [hb.agree q t ht] at hy
  rw [Finset.card_pos]
  rcases hxy with he | he
  · exact ⟨(x, y), mem_distPairEdges.2 ⟨he, .inl ⟨hx, hy⟩⟩⟩
  · exact ⟨(y, x), mem_distPairEdges.2 ⟨he, .inr ⟨hy, hx⟩⟩⟩

/-! ### The bound on the number of cuts -/

theorem boundedBalance_eq {bound : ℤ} {f : PopGraph V → M S (List (Cut V))} {h : PopGraph V} {w w' : S}
    {cuts : List (Cut V)} (hr : boundedBalance bound f h w = (.ok cuts, w')) :
    f h w = (.ok cuts, w') ∧ (cuts.length : ℤ) ≤ bound := by
  unfold boundedBalance at hr
  obtain ⟨c, w1, h1, h2⟩ := M.bind_eq_ok hr
  by_cases hc : (c.length : ℤ) > bound
  · rw [if_pos hc] at h2; cases h2
  · rw [if_neg hc] at h2; cases h2
    exact ⟨h1, by omega⟩

theorem boundedBalance_error {bound : ℤ} {f : PopGraph V → M S (List (Cut V))} {h : PopGraph V} {w w' : S} {e : PyErr}
    (hr : boundedBalance bound f h w = (.error e, w')) : f h w = (.error e, w') ∨
      (e = .reversibilityError ∧ ∃ cuts, f h w = (.ok cuts, w') ∧ bound < cuts.length) := by
  unfold boundedBalance at hr
  rcases M.bind_eq_error hr with h1 | ⟨c, w1, h1, h2⟩
  · exact .inl h1
  · by_cases hc : (c.length : ℤ) > bound
    · rw [if_pos hc] at h2; cases h2
      exact .inr ⟨rfl, c, h1, hc⟩
    · rw [if_neg hc] at h2; cases h2

theorem balanceOk_bounded (bound : ℤ) {bal : Bool → PopGraph V → M S (List (Cut V))} (h : BalanceOk bal) :
    BalanceOk (fun o => boundedBalance bound (bal o)) := by
  refine ⟨?_, ?_⟩
  · intro oneSided T wt pop ideal eps w cuts w' hT hr
    exact h.1 oneSided T wt pop ideal eps w cuts w' hT (boundedBalance_eq hr).1
  · intro oneSided nodes T wt pop ideal eps w cuts w' hT hr
    exact h.2 oneSided nodes T wt pop ideal eps w cuts w' hT (boundedBalance_eq hr).1

theorem bipStep_cuts {cfg : BipConfig V S} {G : Graph V} {pop : V → ℚ} {target eps : ℚ} {t : WTree V} {r : ℕ} {w w' : S}
    {x : WTree V × ℕ × PopGraph V × List (Cut V)} (h : bipStep cfg G pop target eps t r w = (.ok x, w')) :
    ∃ h' w1, cfg.balanceFn h' w1 = (.ok x.2.2.2, w') := by
  unfold bipStep at h
  obtain ⟨⟨t1, r1⟩, w1, -, h2⟩ := M.bind_eq_ok h
  obtain ⟨cuts, w2, h3, h4⟩ := M.bind_eq_ok h2
  cases h4
  exact ⟨_, w1, h3⟩

theorem bipStep_error {cfg : BipConfig V S} {G : Graph V} {pop : V → ℚ} {target eps : ℚ} {t : WTree V} {r : ℕ} {w w' : S}
    {e : PyErr} (h : bipStep cfg G pop target eps t r w = (.error e, w')) :
    (∃ w1, cfg.spanFn G w1 = (.error e, w')) ∨ ∃ h' w1, cfg.balanceFn h' w1 = (.error e, w') := by
  unfold bipStep at h
  rcases M.bind_eq_error h with h1 | ⟨⟨t1, r1⟩, w1, -, h2⟩
  · left
    by_cases hr : r = cfg.nodeRepeats
    · rw [if_pos hr] at h1
      rcases M.bind_eq_error h1 with h1 | ⟨t1, w1, -, h2⟩
      · exact ⟨w, h1⟩
      · cases h2
    · rw [if_neg hr] at h1; cases h1
  · right
    rcases M.bind_eq_error h2 with h3 | ⟨c, w2, -, h4⟩
    · exact ⟨_, w1, h3⟩
    · cases h4

theorem randomAll_cuts {cfg : BipConfig V S} {rep : Bool} {fuel : ℕ} {tree : Option (WTree V)} {G : Graph V} {pop : V → ℚ}
    {target eps : ℚ} {w w' : S} {cuts : List (Cut V)}
    (h : bipartitionRandomAll cfg rep fuel tree G pop target eps w = (.ok cuts, w')) :
    ∃ h' w1, cfg.balanceFn h' w1 = (.ok cuts, w') := by
  have loop : ∀ (fuel : ℕ) (t : WTree V) (r a : ℕ) (w : S),
      randomAllLoop cfg rep G pop target eps fuel t r a w = (.ok cuts, w') → ∃ h' w1, cfg.balanceFn h' w1 = (.ok cuts, w') := by
    intro fuel
    induction fuel with
    | zero => intro t r a w h; cases h
    | succ n ih =>
      intro t r a w h
      unfold randomAllLoop at h
      by_cases ha : attemptsLeft cfg.maxAttempts a = true
      · rw [if_pos ha] at h
        obtain ⟨⟨t1, r1, h1, c⟩, w1, k1, k2⟩ := M.bind_eq_ok h
        simp only at k2
        by_cases hc : (rep && c.isEmpty) = true
        · rw [if_pos hc] at k2
          exact ih _ _ _ _ k2
        · rw [if_neg hc] at k2
          cases k2
          exact bipStep_cuts k1
      · rw [if_neg ha] at h; cases h
  unfold bipartitionRandomAll at h
  obtain ⟨t, w1, -, h3⟩ := M.bind_eq_ok h
  exact loop fuel t 0 0 w1 h3

theorem randomAll_error {cfg : BipConfig V S} {rep : Bool} {fuel : ℕ} {G : Graph V} {pop : V → ℚ} {target eps : ℚ} {m : ℕ}
    (hm : cfg.maxAttempts = some (m + 1)) {w w' : S} {e : PyErr}
    (h : bipartitionRandomAll cfg rep fuel none G pop target eps w = (.error e, w')) :
    (∃ w1, cfg.spanFn G w1 = (.error e, w')) ∨ (∃ h' w1, cfg.balanceFn h' w1 = (.error e, w')) ∨
      (rep = true ∧ e = .runtimeError) ∨ (e = .outOfFuel ∧ (fuel = 0 ∨ rep = true)) := by
  have loop : ∀ (fuel : ℕ) (t : WTree V) (r a : ℕ) (w : S), (rep = false → a = 0) →
      randomAllLoop cfg rep G pop target eps fuel t r a w = (.error e, w') →
      (∃ w1, cfg.spanFn G w1 = (.error e, w')) ∨ (∃ h' w1, cfg.balanceFn h' w1 = (.error e, w')) ∨
      (rep = true ∧ e = .runtimeError) ∨ (e = .outOfFuel ∧ (fuel = 0 ∨ rep = true)) := by
    intro fuel
    induction fuel with
    | zero => intro t r a w _ h; cases h; exact .inr (.inr (.inr ⟨rfl, .inl rfl⟩))
    | succ n ih =>
      intro t r a w ha0 h
      unfold randomAllLoop at h
      by_cases ha : attemptsLeft cfg.maxAttempts a = true
      · rw [if_pos ha] at h
        rcases M.bind_eq_error h with h1 | ⟨⟨t1, r1, h1, c⟩, w1, k1, k2⟩
        · rcases bipStep_error h1 with h | h
          · exact .inl h
          · exact .inr (.inl h)
        · simp only at k2
          by_cases hc : (rep && c.isEmpty) = true
          · rw [if_pos hc] at k2
            simp only [Bool.and_eq_true] at hc
            rcases ih _ _ _ _ (by rw [hc.1]; simp) k2 with h | h | h | h
            · exact .inl h
            · exact .inr (.inl h)
            · exact .inr (.inr (.inl h))
            · exact .inr (.inr (.inr ⟨h.1, .inr hc.1⟩))
          · rw [if_neg hc] at k2
            cases k2
      · rw [if_neg ha] at h
        cases h
        right; right; left
        refine ⟨?_, rfl⟩
        rcases rep
        · rw [ha0 rfl, hm] at ha
          simp [attemptsLeft] at ha
        · rfl
  unfold bipartitionRandomAll at h
  rcases M.bind_eq_error h with h1 | ⟨t, w1, -, h3⟩
  · exact .inl ⟨w, h1⟩
  · exact loop fuel t 0 0 w1 (fun _ => rfl) h3

/-! ### The candidate -/

theorem get?_cutFlips (p q : P) (all nodes : Finset V) (v : V) : (cutFlips p q all nodes).get? v =
    if v ∈ all \ nodes then some q else if v ∈ nodes then some p else none := by
  unfold cutFlips
  rw [get?_assignAll, get?_assignAll]
  rfl

theorem cutFlips_wf (p q : P) (all nodes : Finset V) : (cutFlips p q all nodes).WF :=
  (Dict.wf_empty.assignAll _ _).assignAll _ _

/-- The candidate of `reversible_recom` is a recombination, with at least one and at most `bound` cuts and a nonempty seam. -/
theorem revCandidate_ok {R : Rand S} (hR : R.Valid) {span : Graph V → M S (WTree V)} (hspan : SpanOk span)
    {bal : Bool → PopGraph V → M S (List (Cut V))} (hbal : BalanceOk bal) {bound : ℤ} {rep : Bool} {fuel : ℕ} {G : Graph V}
    (hG : G.WF) {a : Assignment V P} (ha : a.Coherent) (hcov : a.Covers G.nodes) (hc : ContiguousPlan G a) {pop : V → ℚ}
    {target eps : ℚ} {w w' : S} {flips : Dict V P} {n seam : ℕ}
    (h : revCandidate R span (bal false) bound rep fuel G a pop target eps w = (.ok (some (flips, n, seam)), w')) :
    flips.WF ∧ (∃ b, a.flip flips = .ok b ∧ ∃ p q, Recombined G pop target eps p q a b ∧
      seam = (distPairEdges G b.mapping p q).card) ∧ 0 < n ∧ (n : ℤ) ≤ bound ∧ 0 < seam := by
  unfold revCandidate at h
  obtain ⟨pair, w1, h1, g1⟩ := M.bind_eq_ok h
  by_cases hself : pair.1 = pair.2 ∨ distPairEdges G a.mapping pair.1 pair.2 = ∅
  · rw [if_pos hself] at g1; cases g1
  rw [if_neg hself] at g1
  obtain ⟨edge, w2, h2, g2⟩ := M.bind_eq_ok g1
  obtain ⟨pq, w3, h3, g3⟩ := M.bind_eq_ok g2
  obtain ⟨u, w4, h4, g4⟩ := M.bind_eq_ok g3
  obtain ⟨cuts, w5, h5, g5⟩ := M.bind_eq_ok g4
  by_cases hcuts : cuts = []
  · rw [if_pos hcuts] at g5; cases g5
  rw [if_neg hcuts] at g5
  obtain ⟨c, w6, h6, g6⟩ := M.bind_eq_ok g5
  obtain ⟨b, w7, h7, g7⟩ := M.bind_eq_ok g6
  have hb := (M.lift_eq_ok h7).1
  obtain ⟨e1, e2⟩ := endLabels_ok (M.lift_eq_ok h3).1
  obtain ⟨s, t, hs, ht, rfl⟩ := mergedNodes_ok (M.lift_eq_ok h4).1
  obtain ⟨he, hlab⟩ := mem_distPairEdges.1 (mem_iterE.1 (hR.choice_ok h2))
  rw [e1, e2] at hlab
  simp only [Option.some.injEq] at hlab
  have hpq : pq.1 ≠ pq.2 := by
    intro hh
    apply hself
    left
    rcases hlab with ⟨k1, k2⟩ | ⟨k1, k2⟩
    · rw [← k1, ← k2, hh]
    · rw [← k1, ← k2, hh]
  have hj : ∃ u v, G.Adj u v ∧ a.mapping.get? u = some pq.1 ∧ a.mapping.get? v = some pq.2 := ⟨_, _, .inl he, e1, e2⟩
  have hms := ha.agree _ s hs
  have hmt := ha.agree _ t ht
  have hsub : s ∪ t ⊆ G.nodes := by
    intro v hv
    rw [← hcov v, Dict.mem_keys_iff]
    rw [Finset.mem_union, hms, hmt] at hv
    rcases hv with hv | hv <;> exact ⟨_, hv⟩
  have hconn : ConnectedOn G (s ∪ t) := by
    obtain ⟨u, v, h3, h4, h5⟩ := hj
    exact connectedOn_union (hc _ s hs) (hc _ t ht) ((hms u).2 h4) ((hmt v).2 h5) h3
  have hn : (G.subgraph (s ∪ t)).nodes = s ∪ t := (method_on_subgraph (G := G) hsub (A := ∅)).1
  obtain ⟨-, hgood⟩ := C34_random_all _ (fun o => boundedBalance bound (bal o)) false rfl (balanceOk_bounded bound hbal) hspan
    rep fuel (G.subgraph (s ∪ t)) (hG.subgraph _) ((connectedOn_subgraph (G := G) hsub).2 hconn) none (by simp) pop target eps
    w4 w5 cuts h5
  obtain ⟨c1, c2, c3, c4, c5⟩ := hgood c (hR.choice_ok h6)
  have c5 := c5 rfl
  rw [hn] at c1 c3 c5
  have hwf := cutFlips_wf pq.1 pq.2 (G.subgraph (s ∪ t)).nodes c.subset
  have hget := get?_cutFlips pq.1 pq.2 (s ∪ t) c.subset
  rw [hn] at hwf hb
  have hrec : Recombined G pop target eps pq.1 pq.2 a b := by
    refine recombined_of_split ha hpq hs ht hj hwf ?_ ?_ ?_ hb
    · intro v hv
      rw [hget, if_neg (fun h => hv (Finset.mem_sdiff.1 h).1), if_neg (fun h => hv (c1 h))]
    · intro v hv
      rw [hget]
      by_cases hvc : v ∈ c.subset
      · left; rw [if_neg (by simp [hvc]), if_pos hvc]
      · right; rw [if_pos (Finset.mem_sdiff.2 ⟨hv, hvc⟩)]
    · intro x hx D hD
      rcases hx with rfl | rfl
      · have : D = c.subset := by
          ext v
          rw [hD, hget]
          by_cases hvc : v ∈ c.subset
          · simp [hvc]
          · by_cases hv : v ∈ (s ∪ t) \ c.subset
            · rw [if_pos hv]; simp [hvc, Ne.symm hpq]
            · rw [if_neg hv, if_neg hvc]; simp [hvc]
        rw [this]
        exact ⟨((method_on_subgraph (G := G) hsub (A := c.subset)).2 c1).1 c2, near_iff_popOk.1 c4⟩
      · have : D = (s ∪ t) \ c.subset := by
          ext v
          rw [hD, hget]
          by_cases hv : v ∈ (s ∪ t) \ c.subset
          · rw [if_pos hv]; simp only [hv]
          · rw [if_neg hv]
            by_cases hvc : v ∈ c.subset
            · rw [if_pos hvc]; simp only [hv, iff_false]; simpa using hpq
            · rw [if_neg hvc]; simp [hv]
        rw [this]
        exact ⟨((method_on_subgraph (G := G) hsub (A := (s ∪ t) \ c.subset)).2 Finset.sdiff_subset).1 c3, near_iff_popOk.1 c5⟩
  have hcb := (flip_ok ha hwf hb).coherent
  have hseam := hrec.seam ha hcb hc
  have hpe : distPairEdges G b.mapping pair.1 pair.2 = distPairEdges G b.mapping pq.1 pq.2 := by
    rcases hlab with ⟨k1, k2⟩ | ⟨k1, k2⟩
    · rw [k1, k2]
    · rw [k1, k2, distPairEdges_comm]
  obtain ⟨h', w8, hbb⟩ := randomAll_cuts h5
  have hlen := (boundedBalance_eq hbb).2
  cases g7
  rw [hn]
  refine ⟨hwf, ⟨b, hb, pq.1, pq.2, hrec, by rw [hpe]⟩, List.length_pos_iff.2 hcuts, hlen, ?_⟩
  rw [hpe]
  exact hseam

/-- **C40** (ratio) The acceptance ratio of a candidate is computed without error and lies in `(0, 1]`. -/
theorem C40_ratio (R : Rand S) (hR : R.Valid) (span : Graph V → M S (WTree V)) (hspan : SpanOk span)
    (bal : Bool → PopGraph V → M S (List (Cut V))) (hbal : BalanceOk bal) (bound : ℤ) (rep : Bool) (fuel : ℕ) (G : Graph V)
    (hG : G.WF) (a : Assignment V P) (ha : a.Coherent) (hcov : a.Covers G.nodes) (hc : ContiguousPlan G a) (pop : V → ℚ)
    (target eps : ℚ) (w w' : S) (flips : Dict V P) (n seam : ℕ)
    (h : revCandidate R span (bal false) bound rep fuel G a pop target eps w = (.ok (some (flips, n, seam)), w')) :
    revProb bound n seam = .ok ((n : ℚ) / (bound * seam)) ∧ 0 < (n : ℚ) / (bound * seam) ∧ (n : ℚ) / (bound * seam) ≤ 1 := by
  obtain ⟨-, -, h1, h2, h3⟩ := revCandidate_ok hR hspan hbal hG ha hcov hc h
  have hb : 0 < bound := by omega
  have hpos : (0 : ℚ) < bound * seam := by
    have : (0 : ℚ) < bound := by exact_mod_cast hb
    have : (0 : ℚ) < seam := by exact_mod_cast h3
    positivity
  refine ⟨?_, ?_, ?_⟩
  · unfold revProb
    rw [if_neg]
    have : (0 : ℤ) < bound * seam := by positivity
    omega
  · have : (0 : ℚ) < n := by exact_mod_cast h1
    positivity
  · rw [div_le_one hpos]
    have e1 : (n : ℚ) ≤ bound := by exact_mod_cast h2
    have e2 : (1 : ℚ) ≤ seam := by exact_mod_cast h3
    have e3 : (0 : ℚ) ≤ bound := by exact_mod_cast hb.le
    nlinarith

/-- **C40** (result) `reversible_recom` returns the unchanged plan or a recombination of two adjacent districts. -/
theorem C40_result (R : Rand S) (hR : R.Valid) (span : Graph V → M S (WTree V)) (hspan : SpanOk span)
    (bal : Bool → PopGraph V → M S (List (Cut V))) (hbal : BalanceOk bal) (bound : ℤ) (rep : Bool) (fuel : ℕ) (G : Graph V)
    (hG : G.WF) (a : Assignment V P) (ha : a.Coherent) (hcov : a.Covers G.nodes) (hc : ContiguousPlan G a) (pop : V → ℚ)
    (target eps : ℚ) (w w' : S) (flips : Dict V P)
    (h : revFlips R span (bal false) bound rep fuel G a pop target eps w = (.ok (some flips), w')) :
    flips.WF ∧ ∃ b, a.flip flips = .ok b ∧ ∃ p q, Recombined G pop target eps p q a b := by
  unfold revFlips at h
  obtain ⟨r, w1, h1, g1⟩ := M.bind_eq_ok h
  rcases r with _ | ⟨f, n, seam⟩
  · cases g1
  · simp only at g1
    obtain ⟨prob, w2, h2, g2⟩ := M.bind_eq_ok g1
    by_cases hp : prob > 1
    · rw [if_pos hp] at g2; cases g2
    rw [if_neg hp] at g2
    obtain ⟨x, w3, h3, g3⟩ := M.bind_eq_ok g2
    by_cases hx : x < prob
    · rw [if_pos hx] at g3
      cases g3
      obtain ⟨k1, ⟨b, k2, p, q, k3, -⟩, -⟩ := revCandidate_ok hR hspan hbal hG ha hcov hc h1
      exact ⟨k1, b, k2, p, q, k3⟩
    · rw [if_neg hx] at g3; cases g3

theorem allPairs_ne_nil {a : Assignment V P} (h : a.parts.keys ≠ []) : allPairs a ≠ [] := by
  obtain ⟨x, hx⟩ := List.exists_mem_of_ne_nil _ h
  have hx' : x ∈ a.parts.keys.insertionSort (· ≤ ·) := (List.perm_insertionSort _ _).mem_iff.2 hx
  intro hn
  have : (x, x) ∈ allPairs a := by
    unfold allPairs
    rw [List.mem_flatMap]
    exact ⟨x, hx', List.mem_map.2 ⟨x, hx', rfl⟩⟩
  rw [hn] at this
  cases this

theorem choice_no_error {R : Rand S} (hR : R.Valid) {α : Type} {l : List α} (hl : l ≠ []) {w w' : S} {e : PyErr} :
    R.choice l w ≠ (.error e, w') := by
  obtain ⟨x, -, s', h⟩ := hR.choice_mem l w hl
  rw [h]; simp

/-- **C40** (errors, partial) `reversible_recom` raises only if a tree has more balanced edges than the bound `M`
(`ReversibilityError`), or the tree or balance function raises, or - with `repeat_until_valid` - the attempts are used up
(`RuntimeError`, or endless attempts in the model).  So the test `prob > 1` never fires and the division never fails.
Missing: with `repeat_until_valid` the `RuntimeError` is a second error for balance reasons. -/
theorem C40_errors_partial (R : Rand S) (hR : R.Valid) (span : Graph V → M S (WTree V)) (hspan : SpanOk span)
    (bal : Bool → PopGraph V → M S (List (Cut V))) (hbal : BalanceOk bal) (bound : ℤ) (rep : Bool) (fuel : ℕ) (hfuel : 0 < fuel)
    (G : Graph V) (hG : G.WF) (a : Assignment V P) (ha : a.Coherent) (hcov : a.Covers G.nodes) (hc : ContiguousPlan G a)
    (hne : a.parts.keys ≠ []) (pop : V → ℚ) (target eps : ℚ) (w w' : S) (e : PyErr)
    (h : revFlips R span (bal false) bound rep fuel G a pop target eps w = (.error e, w')) :
    (e = .reversibilityError ∧ ∃ h' w1 w2 cuts, bal false h' w1 = (.ok cuts, w2) ∧ bound < cuts.length) ∨
    (∃ H w1 w2, span H w1 = (.error e, w2)) ∨ (∃ h' w1 w2, bal false h' w1 = (.error e, w2)) ∨
    (rep = true ∧ (e = .runtimeError ∨ e = .outOfFuel)) := by
  unfold revFlips at h
  rcases M.bind_eq_error h with h1 | ⟨r, w1, h1, g1⟩
  · -- the candidate raises
    unfold revCandidate at h1
    rcases M.bind_eq_error h1 with k | ⟨pair, w2, k1, g1⟩
    · exact absurd k (choice_no_error hR (allPairs_ne_nil hne))
    by_cases hself : pair.1 = pair.2 ∨ distPairEdges G a.mapping pair.1 pair.2 = ∅
    · rw [if_pos hself] at g1; cases g1
    rw [if_neg hself] at g1
    rcases M.bind_eq_error g1 with k | ⟨edge, w3, k2, g2⟩
    · refine absurd k (choice_no_error hR ?_)
      intro hn
      apply hself
      right
      ext x
      rw [← mem_iterE, hn]
      simp
    have hedge := mem_iterE.1 (hR.choice_ok k2)
    obtain ⟨he, hlab⟩ := mem_distPairEdges.1 hedge
    obtain ⟨pq, hpq⟩ := endLabels_total hG hcov (u := edge.1) (v := edge.2) (.inl he)
    rcases M.bind_eq_error g2 with k | ⟨pq', w4, k3, g3⟩
    · have := (Prod.mk.inj k).1
      rw [hpq] at this; cases this
    have e0 := (M.lift_eq_ok k3).1
    rw [hpq] at e0; cases e0
    obtain ⟨e1, e2⟩ := endLabels_ok hpq
    obtain ⟨s, hs⟩ := Dict.mem_keys_iff.1 (ha.complete _ _ e1)
    obtain ⟨t, ht⟩ := Dict.mem_keys_iff.1 (ha.complete _ _ e2)
    have hmer : mergedNodes a pq.1 pq.2 = .ok (s ∪ t) := by
      unfold mergedNodes
      rw [Dict.get_eq_ok_iff.2 hs, Dict.get_eq_ok_iff.2 ht]
      rfl
    rcases M.bind_eq_error g3 with k | ⟨u, w5, k4, g4⟩
    · have := (Prod.mk.inj k).1
      rw [hmer] at this; cases this
    have e3 := (M.lift_eq_ok k4).1
    rw [hmer] at e3; cases e3
    rcases M.bind_eq_error g4 with k | ⟨cuts, w6, k5, g5⟩
    · rcases randomAll_error (m := 99999) rfl k with ⟨w1, k⟩ | ⟨h', w1, k⟩ | k | ⟨k, k'⟩
      · exact .inr (.inl ⟨_, _, _, k⟩)
      · rcases boundedBalance_error k with k | ⟨rfl, cuts, k, k'⟩
        · exact .inr (.inr (.inl ⟨_, _, _, k⟩))
        · exact .inl ⟨rfl, _, _, _, _, k, k'⟩
      · exact .inr (.inr (.inr ⟨k.1, .inl k.2⟩))
      · rcases k' with k' | k'
        · omega
        · exact .inr (.inr (.inr ⟨k', .inr k⟩))
    by_cases hcuts : cuts = []
    · rw [if_pos hcuts] at g5; cases g5
    rw [if_neg hcuts] at g5
    rcases M.bind_eq_error g5 with k | ⟨c, w7, k6, g6⟩
    · exact absurd k (choice_no_error hR hcuts)
    rcases M.bind_eq_error g6 with k | ⟨b, w8, k7, g7⟩
    · exfalso
      have hfl := (Prod.mk.inj k).1
      have hwf := cutFlips_wf pq.1 pq.2 (G.subgraph (s ∪ t)).nodes c.subset
      obtain ⟨-, hbad⟩ := (C03_flip_raises_iff a ha _ hwf e).1 hfl
      have hms := ha.agree _ s hs
      have hmt := ha.agree _ t ht
      have hsub : s ∪ t ⊆ G.nodes := by
        intro v hv
        rw [← hcov v, Dict.mem_keys_iff]
        rw [Finset.mem_union, hms, hmt] at hv
        rcases hv with hv | hv <;> exact ⟨_, hv⟩
      have hconn : ConnectedOn G (s ∪ t) :=
        connectedOn_union (hc _ s hs) (hc _ t ht) ((hms _).2 e1) ((hmt _).2 e2) (.inl he)
      obtain ⟨-, hgood⟩ := C34_random_all _ (fun o => boundedBalance bound (bal o)) false rfl (balanceOk_bounded bound hbal) hspan
        rep fuel (G.subgraph (s ∪ t)) (hG.subgraph _) ((connectedOn_subgraph (G := G) hsub).2 hconn) none (by simp) pop target
        eps _ _ cuts k5
      obtain ⟨c1, -⟩ := hgood c (hR.choice_ok k6)
      have hget := get?_cutFlips pq.1 pq.2 (G.subgraph (s ∪ t)).nodes c.subset
      rcases hbad with ⟨v, hv, hv'⟩ | ⟨p, hp, hp'⟩
      · obtain ⟨x, hx⟩ := Dict.mem_keys_iff.1 hv
        rw [hget] at hx
        apply hv'
        rw [hcov v]
        have hvn : v ∈ (G.subgraph (s ∪ t)).nodes := by
          split_ifs at hx with i1 i2
          · exact (Finset.mem_sdiff.1 i1).1
          · exact c1 i2
        exact (Finset.mem_inter.1 hvn).1
      · apply hp'
        unfold Dict.values at hp
        obtain ⟨⟨v, x⟩, hx, rfl⟩ := List.mem_map.1 hp
        have hg := (Dict.mem_entries_iff hwf).1 hx
        rw [hget] at hg
        split_ifs at hg
        · cases hg; exact Dict.mem_keys_iff.2 ⟨_, ht⟩
        · cases hg; exact Dict.mem_keys_iff.2 ⟨_, hs⟩
    · cases g7
  · rcases r with _ | ⟨f, n, seam⟩
    · cases g1
    · exfalso
      simp only at g1
      obtain ⟨p1, p2, p3⟩ := C40_ratio R hR span hspan bal hbal bound rep fuel G hG a ha hcov hc pop target eps _ _ f n seam h1
      rw [p1] at g1
      rcases M.bind_eq_error g1 with k | ⟨prob, w2, k, g2⟩
      · cases k
      · cases k
        rw [if_neg (not_lt.2 p3)] at g2
        rcases M.bind_eq_error g2 with k | ⟨x, w3, k, g3⟩
        · obtain ⟨x, s', h', -⟩ := hR.random_ok w1
          rw [h'] at k; cases k
        · by_cases hx : x < (n : ℚ) / (bound * seam)
          · rw [if_pos hx] at g3; cases g3
          · rw [if_neg hx] at g3; cases g3

/-! ### On partition objects -/

theorem revFlips_wf {R : Rand S} {span : Graph V → M S (WTree V)} {bal : PopGraph V → M S (List (Cut V))} {bound : ℤ}
    {rep : Bool} {fuel : ℕ} {G : Graph V} {a : Assignment V P} {pop : V → ℚ} {target eps : ℚ} {w w' : S} {flips : Dict V P}
    (h : revFlips R span bal bound rep fuel G a pop target eps w = (.ok (some flips), w')) : flips.WF := by
  unfold revFlips at h
  obtain ⟨r, w1, h1, g1⟩ := M.bind_eq_ok h
  rcases r with _ | ⟨f, n, seam⟩
  · cases g1
  simp only at g1
  obtain ⟨prob, w2, h2, g2⟩ := M.bind_eq_ok g1
  by_cases hp : prob > 1
  · rw [if_pos hp] at g2; cases g2
  rw [if_neg hp] at g2
  obtain ⟨x, w3, h3, g3⟩ := M.bind_eq_ok g2
  by_cases hx : x < prob
  swap
  · rw [if_neg hx] at g3; cases g3
  rw [if_pos hx] at g3
  cases g3
  unfold revCandidate at h1
  obtain ⟨pair, w1, h1, g1⟩ := M.bind_eq_ok h1
  by_cases hself : pair.1 = pair.2 ∨ distPairEdges G a.mapping pair.1 pair.2 = ∅
  · rw [if_pos hself] at g1; cases g1
  rw [if_neg hself] at g1
  obtain ⟨edge, w2, h2, g2⟩ := M.bind_eq_ok g1
  obtain ⟨pq, w3, h3, g3⟩ := M.bind_eq_ok g2
  obtain ⟨u, w4, h4, g4⟩ := M.bind_eq_ok g3
  obtain ⟨cuts, w5, h5, g5⟩ := M.bind_eq_ok g4
  by_cases hcuts : cuts = []
  · rw [if_pos hcuts] at g5; cases g5
  rw [if_neg hcuts] at g5
  obtain ⟨c, w6, h6, g6⟩ := M.bind_eq_ok g5
  obtain ⟨b, w7, h7, g7⟩ := M.bind_eq_ok g6
  cases g7
  exact cutFlips_wf _ _ _ _

theorem reversibleRecom_ok {R : Rand X} {span : Graph V → M X (WTree V)} {bal : PopGraph V → M X (List (Cut V))} {bound : ℤ}
    {rep : Bool} {fuel : ℕ} {pop : V → ℚ} {target eps : ℚ} {st q : ℕ} {s s1 : World V P X}
    (h : reversibleRecom R span bal bound rep fuel pop target eps st s = (.ok q, s1)) :
    ∃ v r w', s.1.frame.view st = some v ∧
      revFlips R span bal bound rep fuel s.1.frame.data.graph v.assignment pop target eps s.2 = (.ok r, w') ∧
      ((r = none ∧ q = st ∧ s1.1 = s.1) ∨ ∃ flips F, r = some flips ∧ s.1.frame.flip st flips = .ok F ∧
        q = s.1.frame.objs.length ∧ s1.1 = ⟨F, s.1.caches⟩) := by
  unfold reversibleRecom at h
  obtain ⟨v, w1, h1, g1⟩ := M.bind_eq_ok h
  obtain ⟨hw1, hv⟩ := viewObj_eq h1
  obtain ⟨w, w2, h2, g2⟩ := M.bind_eq_ok g1
  have hw2 : w = s ∧ w2 = s := by rw [← hw1]; cases h2; exact ⟨rfl, rfl⟩
  rw [hw2.1, hw2.2] at g2
  obtain ⟨r, w3, h3, g3⟩ := M.bind_eq_ok g2
  obtain ⟨h4, h5⟩ := M.onRest_eq h3
  refine ⟨v, r, w3.2, (hv v).1 rfl, h4, ?_⟩
  rcases r with _ | flips
  · cases g3
    exact .inl ⟨rfl, rfl, h5⟩
  · right
    rcases flipObj_eq g3 with ⟨F, k1, k2, k3⟩ | ⟨e, k1, -⟩
    · rw [h5] at k1 k2 k3
      cases k2
      exact ⟨flips, F, rfl, k1, rfl, k3⟩
    · cases k1

theorem reversibleRecom_flipProposal {R : Rand X} {span : Graph V → M X (WTree V)} {bal : PopGraph V → M X (List (Cut V))}
    {bound : ℤ} {rep : Bool} {fuel : ℕ} {pop : V → ℚ} {target eps : ℚ} :
    FlipProposal (reversibleRecom R span bal bound rep fuel pop target eps : ℕ → M (World V P X) ℕ) := by
  constructor
  · intro st s q s1 h
    obtain ⟨v, r, w', -, h2, h3⟩ := reversibleRecom_ok h
    refine ⟨[], by simp, ?_⟩
    rcases h3 with ⟨-, rfl, h3⟩ | ⟨flips, F, rfl, h3, h4, h5⟩
    · exact .inl ⟨rfl, h3⟩
    · exact .inr ⟨flips, F, revFlips_wf h2, h3, h5, h4⟩
  · intro st s e s1 h
    refine ⟨[], by simp, ?_⟩
    show s1.1 = s.1
    unfold reversibleRecom at h
    rcases M.bind_eq_error h with h1 | ⟨v, w1, h1, g1⟩
    · rw [(viewObj_eq h1).1]
    obtain ⟨hw1, hv⟩ := viewObj_eq h1
    rcases M.bind_eq_error g1 with h2 | ⟨w, w2, h2, g2⟩
    · cases h2
    have hw2 : w2 = s := by rw [← hw1]; cases h2; rfl
    rw [hw2] at g2
    rcases M.bind_eq_error g2 with h3 | ⟨r, w3, h3, g3⟩
    · exact (M.onRest_eq h3).2
    obtain ⟨-, h5⟩ := M.onRest_eq h3
    rcases r with _ | flips
    · cases g3
    · rcases flipObj_eq g3 with ⟨F, -, k2, -⟩ | ⟨e, -, k2⟩
      · cases k2
      · rw [k2, h5]

/-- **C40** (partition objects) On a contiguous plan `reversible_recom` returns the partition itself or a new child whose plan
is a recombination of two adjacent districts. -/
theorem C40_reversible_recom (R : Rand X) (hR : R.Valid) (span : Graph V → M X (WTree V)) (hspan : SpanOk span)
    (bal : Bool → PopGraph V → M X (List (Cut V))) (hbal : BalanceOk bal) (bound : ℤ) (rep : Bool) (fuel : ℕ) (pop : V → ℚ)
    (target eps : ℚ) (st q : ℕ) (s s1 : World V P X) (hs : HeapInv s.1) (v : View V P) (hv : s.1.frame.view st = some v)
    (hc : ContiguousPlan s.1.frame.data.graph v.assignment)
    (h : reversibleRecom R span (bal false) bound rep fuel pop target eps st s = (.ok q, s1)) :
    (q = st ∧ s1.1 = s.1) ∨ ∃ w, s1.1.frame.view q = some w ∧ w.parent = some st ∧ (∀ v', s.1.frame.view q ≠ some v') ∧
      ∃ p p', Recombined s.1.frame.data.graph pop target eps p p' v.assignment w.assignment := by
  obtain ⟨v', r, w', h1, h2, h3⟩ := reversibleRecom_ok h
  rw [hv] at h1; cases h1
  rcases h3 with ⟨-, h3⟩ | ⟨flips, F, rfl, h3, h4, h5⟩
  · exact .inl h3
  · obtain ⟨k1, b, k2, p, p', k3⟩ := C40_result R hR span hspan bal hbal bound rep fuel _ hs.frame.graph _
      (hs.frame.coherent _ _ hv) (hs.frame.covers _ _ hv) hc pop target eps _ _ flips h2
    obtain ⟨-, -, v3, b', hv3, hb, w, hw, hwb, hwp⟩ := hs.frame.flip k1 h3
    rw [hv] at hv3; cases hv3
    rw [k2] at hb; cases hb
    right
    refine ⟨w, by rw [h5, h4]; exact hw, hwp, ?_, p, p', by rw [hwb]; exact k3⟩
    intro v' hv'
    have := Frame.lt_of_view hv'
    omega

/-- chains of `reversible_recom` satisfy the hypotheses of C65 -/
theorem reversibleRecom_recombining {R : Rand X} (hR : R.Valid) {span : Graph V → M X (WTree V)} (hspan : SpanOk span)
    {bal : Bool → PopGraph V → M X (List (Cut V))} (hbal : BalanceOk bal) {bound : ℤ} {rep : Bool} {fuel : ℕ} {pop : V → ℚ}
    {target eps : ℚ} :
    Recombining pop target eps (reversibleRecom R span (bal false) bound rep fuel pop target eps : ℕ → M (World V P X) ℕ) := by
  refine ⟨reversibleRecom_flipProposal, ?_⟩
  intro st s q s1 v hs hv hc h
  rcases C40_reversible_recom R hR span hspan bal hbal bound rep fuel pop target eps st q s s1 hs v hv hc h with
    ⟨h1, -⟩ | ⟨w, h1, -, -, h2⟩
  · exact .inl h1
  · exact .inr ⟨w, h1, h2⟩

/-! ### The other error -/

/-- With `repeat_until_valid`, on a graph without a balanced bipartition, the attempts run out. -/
theorem randomAll_runs_out {bal : Bool → PopGraph V → M S (List (Cut V))} (hbal : BalanceOk bal)
    {span : Graph V → M S (WTree V)} (hspan : SpanOk span) {bound : ℤ} (hb : 0 ≤ bound) {G : Graph V} (hG : G.WF)
    (hconn : ConnectedOn G G.nodes) (pop : V → ℚ) (target eps : ℚ) (m : ℕ)
    (hs : ∀ w, ∃ t w', span G w = (.ok t, w')) (ht : ∀ (t : WTree V) (w : S), TreeOk G t.graph → ∃ cuts w',
      bal false (PopGraph.init G.nodes t.graph t.weight pop target eps) w = (.ok cuts, w'))
    (hno : ¬ ∃ B, GoodBipartition G pop target eps false B) (fuel : ℕ) (hf : m < fuel) (w : S) :
    ∃ w', bipartitionRandomAll ⟨span, boundedBalance bound (bal false), 1, some m⟩ true fuel none G pop target eps w =
      (.error .runtimeError, w') := by
  set cfg : BipConfig V S := ⟨span, boundedBalance bound (bal false), 1, some m⟩ with hcfg
  have hstep : ∀ t r w, TreeOk G t.graph → ∃ t' r' h w', bipStep cfg G pop target eps t r w = (.ok (t', r', h, []), w') ∧
      TreeOk G t'.graph := by
    have hempty : ∀ (t : WTree V) (w : S), TreeOk G t.graph → ∃ w',
        boundedBalance bound (bal false) (PopGraph.init G.nodes t.graph t.weight pop target eps) w = (.ok [], w') := by
      intro t w h
      obtain ⟨cuts, w', h1⟩ := ht t w h
      have : cuts = [] := by
        rcases cuts with _ | ⟨c, cs⟩
        · rfl
        · exact absurd ⟨c.subset, hbal.good h h1 List.mem_cons_self⟩ hno
      subst this
      refine ⟨w', ?_⟩
      unfold boundedBalance
      rw [M.bind_ok h1, if_neg (by simpa using hb)]
      rfl
    intro t r w h
    unfold bipStep
    by_cases hr : r = cfg.nodeRepeats
    · obtain ⟨t1, w1, h1⟩ := hs w
      have h2 := hspan G w t1 w1 hG hconn h1
      obtain ⟨w2, h3⟩ := hempty t1 w1 h2
      refine ⟨t1, 0, PopGraph.init G.nodes t1.graph t1.weight pop target eps, w2, ?_, h2⟩
      rw [if_pos hr, M.bind_ok (a := (t1, 0)) (s' := w1)]
      · simp only
        rw [M.bind_ok h3]
        rfl
      · rw [M.bind_ok h1]; rfl
    · obtain ⟨w2, h3⟩ := hempty t w h
      refine ⟨t, r, PopGraph.init G.nodes t.graph t.weight pop target eps, w2, ?_, h⟩
      rw [if_neg hr, M.bind_ok (show (pure (t, r) : M S (WTree V × ℕ)) w = (.ok (t, r), w) from rfl)]
      simp only
      rw [M.bind_ok h3]
      rfl
  have loop : ∀ (fuel : ℕ) (t : WTree V) (r a : ℕ) (w : S), TreeOk G t.graph → a ≤ m → m < a + fuel → ∃ w',
      randomAllLoop cfg true G pop target eps fuel t r a w = (.error .runtimeError, w') := by
    intro fuel
    induction fuel with
    | zero => intro t r a w _ h1 h2; omega
    | succ n ih =>
      intro t r a w h1 h2 h3
      unfold randomAllLoop
      by_cases ha : attemptsLeft cfg.maxAttempts a = true
      · rw [if_pos ha]
        obtain ⟨t', r', h, w', k1, k2⟩ := hstep t r w h1
        rw [M.bind_ok k1]
        have : a < m := by simpa [attemptsLeft, hcfg] using ha
        exact ih _ _ _ _ k2 (by omega) (by omega)
      · rw [if_neg ha]
        exact ⟨w, rfl⟩
  unfold bipartitionRandomAll
  obtain ⟨t, w1, h1⟩ := hs w
  obtain ⟨w2, h2⟩ := loop fuel t 0 0 w1 (hspan G w t w1 hG hconn h1) (by omega) (by omega)
  exact ⟨w2, (M.bind_ok h1).trans h2⟩

/-- **C40 is violated** with `repeat_until_valid=True`: two adjacent districts of two nodes each and the target population 3.
No tree ever has more balanced edges than `M`; the call raises `RuntimeError` after 100000 trees. -/
theorem C40_violation (span : Graph ℕ → M ℕ (WTree ℕ)) (hspan : SpanOk span)
    (htot : ∀ w, ∃ t w', span (exLine.subgraph {0, 1, 2, 3}) w = (.ok t, w'))
    (bound : ℤ) (hb : 0 ≤ bound) (fuel : ℕ) (hf : 100000 < fuel) : ∃ w',
    revFlips turnRand span (memoBalance turnRand false) bound true fuel exLine linePlan (fun _ => 1) 3 0 1 =
      (.error .runtimeError, w') := by
  have hwf : (exLine.subgraph {0, 1, 2, 3}).WF := exLine_wf.subgraph _
  have hconn : ConnectedOn (exLine.subgraph {0, 1, 2, 3}) (exLine.subgraph {0, 1, 2, 3}).nodes := by
    rw [← nxIsConnected_true hwf]; decide +kernel
  obtain ⟨w', hw'⟩ := randomAll_runs_out (balanceOk_memo turnRand turnRand_valid) hspan hb hwf hconn (fun _ => 1) 3 0 100000
    htot (fun t w ht => by
      rcases ht with ht | ⟨ht, -⟩
      · have hn := ht.nodes
        obtain ⟨cuts, w', g1, -⟩ := C32_memoization ht.tree (by rw [hn]; decide) turnRand turnRand_valid t.weight (fun _ => 1) 3 0
          (fuel := 2 * t.graph.nodes.card) le_rfl w
        rw [hn] at g1
        refine ⟨cuts, w', ?_⟩
        show cutsMemoization turnRand (2 * t.graph.nodes.card) _ false w = _
        rw [hn]
        exact g1
      · exact absurd ht (by decide)) (no_three_of_four (by decide)) fuel hf 3
  refine ⟨w', ?_⟩
  unfold revFlips
  refine M.bind_error ?_
  unfold revCandidate
  have e1 : turnRand.choice (allPairs linePlan) 1 = (.ok (1, 2), 2) := by decide +kernel
  have e2 : turnRand.choice (iterE (distPairEdges exLine linePlan.mapping 1 2)) 2 = (.ok (1, 2), 3) := by decide +kernel
  refine (M.bind_ok e1).trans ?_
  rw [if_neg (by decide +kernel)]
  refine (M.bind_ok e2).trans ?_
  refine (M.bind_ok (show (M.lift (endLabels linePlan (1, 2)) : M ℕ (ℕ × ℕ)) 3 = (.ok (1, 2), 3) by rfl)).trans ?_
  refine (M.bind_ok (show (M.lift (mergedNodes linePlan 1 2) : M ℕ (Finset ℕ)) 3 = (.ok {0, 1, 2, 3}, 3) by rfl)).trans ?_
  exact M.bind_error hw'

/-! ### Examples -/

/-- uniform spanning trees and the memoization algorithm meet the hypotheses of C40 -/
example : SpanOk (V := ℕ) (uniformSpanningTree tapeRand 50) ∧ BalanceOk (V := ℕ) (memoBalance tapeRand) ∧
    linePlan.Coherent ∧ linePlan.Covers exLine.nodes :=
  ⟨spanOk_uniform tapeRand_valid 50, balanceOk_memo _ tapeRand_valid, linePlan_coherent, linePlan_covers⟩

/-- spanning trees of random weights meet the hypotheses of C40_violation -/
example : ∃ w', revFlips turnRand (randomSpanningTree turnRand (fun _ _ => (none : Option ℕ)) none) (memoBalance turnRand false) 1
    true 100001 exLine linePlan (fun _ => 1) 3 0 1 = (.error .runtimeError, w') := by
  refine C40_violation _ (spanOk_random turnRand_valid _ _) (fun w => ?_) 1 (by decide) 100001 (by decide)
  obtain ⟨t, w', g1, -⟩ := C42_random_spanning_tree turnRand_valid (fun _ _ => (none : Option ℕ)) none (exLine.subgraph {0, 1, 2, 3})
    (exLine_wf.subgraph _) (by rw [← nxIsConnected_true (exLine_wf.subgraph _)]; decide +kernel) w
  exact ⟨t, w', g1⟩

/-- the candidate has 3 balanced cuts and a seam of one edge; it is accepted for `M = 3` and an error for `M = 2` -/
example : ((revCandidate tapeRand (uniformSpanningTree tapeRand 50) (memoBalance tapeRand false) 3 false 2 exLine linePlan
      (fun _ => 1) 2 (1/2) [1, 0]).1.toOption.map (·.map (fun x => (x.1.entries, x.2)))) =
      some (some ([(0, 1), (1, 1), (2, 1), (3, 2)], 3, 1)) ∧
    ((revFlips tapeRand (uniformSpanningTree tapeRand 50) (memoBalance tapeRand false) 3 false 2 exLine linePlan
      (fun _ => 1) 2 (1/2) [1, 0]).1.toOption.map (·.map (·.entries))) = some (some [(0, 1), (1, 1), (2, 1), (3, 2)]) ∧
    ((revFlips tapeRand (uniformSpanningTree tapeRand 50) (memoBalance tapeRand false) 2 false 2 exLine linePlan
      (fun _ => 1) 2 (1/2) [1, 0]).1.map (fun _ => 0)) = .error .reversibilityError := by
  refine ⟨by decide +kernel, by decide +kernel, by decide +kernel⟩

end GC

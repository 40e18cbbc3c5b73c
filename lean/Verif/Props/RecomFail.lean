import Verif.Props.Recom
import Verif.Props.Seed
import Mathlib.Tactic.IntervalCases

/-!
# When `recom` gives up (C39)
-/

set_option linter.unusedSectionVars false
set_option autoImplicit false

namespace GC

variable {V P S X : Type} [LinearOrder V] [LinearOrder P]

/-- `x` is eventually drawn when `choice(l)` is called again and again -/
inductive Hits (R : Rand S) {α : Type} (l : List α) (x : α) : S → Prop
  | now {w w' : S} (h : R.choice l w = (.ok x, w')) : Hits R l x w
  | later {w w' : S} {y : α} (h : R.choice l w = (.ok y, w')) (h' : Hits R l x w') : Hits R l x w

/-- every element of a list is eventually drawn (a random generator does so with probability 1) -/
def Rand.Fair (R : Rand S) : Prop := ∀ {α : Type} (l : List α) (x : α) (w : S), x ∈ l → Hits R l x w

/-- the pairs of districts -/
def labelPairs (a : Assignment V P) : Finset (P × P) :=
  (a.parts.keys.toFinset ×ˢ a.parts.keys.toFinset).filter (fun x => x.1 < x.2)

theorem card_lt_pairs (s : Finset P) : 2 * ((s ×ˢ s).filter (fun x => x.1 < x.2)).card + s.card = s.card * s.card := by
  have h1 : ((s ×ˢ s).filter (fun x => x.2 < x.1)).card = ((s ×ˢ s).filter (fun x => x.1 < x.2)).card := by
    apply Finset.card_bij (fun x _ => (x.2, x.1))
    · intro x hx; simp only [Finset.mem_filter, Finset.mem_product] at hx ⊢; tauto
    · intro x _ y _ h; simp only [Prod.mk.injEq] at h; exact Prod.ext h.2 h.1
    · intro y hy
      refine ⟨(y.2, y.1), ?_, rfl⟩
      simp only [Finset.mem_filter, Finset.mem_product] at hy ⊢; tauto
  have h2 : ((s ×ˢ s).filter (fun x => x.1 = x.2)).card = s.card := by
    symm
    apply Finset.card_bij (fun x _ => (x, x))
    · intro x hx; simp [hx]
    · intro x _ y _ h; simpa using h
    · intro y hy
      simp only [Finset.mem_filter, Finset.mem_product] at hy
      exact ⟨y.1, hy.1.1, Prod.ext rfl hy.2⟩
  have h3 := Finset.card_filter_add_card_filter_not (s := s ×ˢ s) (fun x => x.1 < x.2)
  have h4 := Finset.card_filter_add_card_filter_not (s := (s ×ˢ s).filter (fun x => ¬ x.1 < x.2)) (fun x => x.1 = x.2)
  have h5 : ((s ×ˢ s).filter (fun x => ¬ x.1 < x.2)).filter (fun x => x.1 = x.2) = (s ×ˢ s).filter (fun x => x.1 = x.2) := by
    ext x; simp only [Finset.mem_filter]
    constructor
    · tauto
    · rintro ⟨h, h'⟩; exact ⟨⟨h, by rw [h']; exact lt_irrefl _⟩, h'⟩
  have h6 : ((s ×ˢ s).filter (fun x => ¬ x.1 < x.2)).filter (fun x => ¬ x.1 = x.2) = (s ×ˢ s).filter (fun x => x.2 < x.1) := by
    ext x; simp only [Finset.mem_filter, not_lt]
    constructor
    · rintro ⟨⟨h, h'⟩, h''⟩; exact ⟨h, lt_of_le_of_ne h' (Ne.symm h'')⟩
    · rintro ⟨h, h'⟩; exact ⟨⟨h, h'.le⟩, h'.ne'⟩
  rw [h5, h6, h1, h2] at h4
  rw [Finset.card_product] at h3
  omega

theorem card_labelPairs {a : Assignment V P} (ha : a.Coherent) : (labelPairs a).card = totPairs a.parts.keys.length := by
  have h := card_lt_pairs a.parts.keys.toFinset
  rw [List.toFinset_card_of_nodup ha.parts_wf] at h
  unfold labelPairs totPairs
  set n := a.parts.keys.length
  have : n * (n - 1) + n = n * n := by
    rcases n with _ | n
    · rfl
    · simp only [Nat.add_sub_cancel]; ring
  omega

theorem recomLoop_succ (R : Rand S) (method : Method V S) (G : Graph V) (a : Assignment V P) (cuts : Finset (V × V))
    (pop : V → ℚ) (target eps : ℚ) (n : ℕ) (bad : Finset (P × P)) :
    recomLoop R method G a cuts pop target eps (n + 1) bad =
    if bad.card < totPairs a.parts.keys.length then
      R.choice (iterE cuts) >>= fun edge => M.lift (endLabels a edge) >>= fun pq =>
        if sortPair pq ∈ bad then recomLoop R method G a cuts pop target eps n bad
        else M.onReselect (recomPair method G a pop target eps (sortPair pq))
          (recomLoop R method G a cuts pop target eps n (insert (sortPair pq) bad))
    else M.raise .metagraphError := rfl

/-- every edge of the graph has two labels -/
theorem endLabels_total {G : Graph V} (hG : G.WF) {a : Assignment V P} (hcov : a.Covers G.nodes) {u v : V} (h : G.Adj u v) :
    ∃ pq, endLabels a (u, v) = .ok pq := by
  obtain ⟨h1, h2⟩ := hG.mem_of_adj h
  obtain ⟨p, hp⟩ := Dict.mem_keys_iff.1 ((hcov u).2 h1)
  obtain ⟨q, hq⟩ := Dict.mem_keys_iff.1 ((hcov v).2 h2)
  refine ⟨(p, q), ?_⟩
  unfold endLabels
  rw [Dict.get_eq_ok_iff.2 hp, Dict.get_eq_ok_iff.2 hq]
  rfl

theorem sortPair_le {α : Type} [LinearOrder α] (x : α × α) : (sortPair x).1 ≤ (sortPair x).2 := by
  unfold sortPair
  split
  · assumption
  · exact (not_le.1 ‹_›).le

/-- the sorted labels of a cut edge are a pair of districts -/
theorem sortPair_mem_labelPairs {G : Graph V} {a : Assignment V P} (ha : a.Coherent) {e : V × V}
    (he : e ∈ cutsOf G a.mapping) {pq : P × P} (h : endLabels a e = .ok pq) : sortPair pq ∈ labelPairs a := by
  obtain ⟨h1, u, v, -, h2, h3⟩ := ends_of_cut he h
  unfold labelPairs
  rw [Finset.mem_filter, Finset.mem_product, List.mem_toFinset, List.mem_toFinset]
  exact ⟨⟨ha.complete _ _ h2, ha.complete _ _ h3⟩, lt_of_le_of_ne (sortPair_le pq) h1⟩

/-- Districts `p < q` joined by an edge: there is a cut edge with these labels. -/
theorem exists_cut_of_joined {G : Graph V} {a : Assignment V P} {p q : P} (hpq : p < q) {u v : V} (hadj : G.Adj u v)
    (hu : a.mapping.get? u = some p) (hv : a.mapping.get? v = some q) :
    ∃ e ∈ cutsOf G a.mapping, ∃ pq, endLabels a e = .ok pq ∧ sortPair pq = (p, q) := by
  have hne : a.mapping.get? u ≠ a.mapping.get? v := by rw [hu, hv]; simpa using hpq.ne
  rcases le_total u v with h | h
  · refine ⟨(u, v), mem_cutsOf.2 ⟨⟨h, hadj⟩, hne⟩, (p, q), ?_, ?_⟩
    · unfold endLabels; rw [Dict.get_eq_ok_iff.2 hu, Dict.get_eq_ok_iff.2 hv]; rfl
    · unfold sortPair; simp [hpq.le]
  · refine ⟨(v, u), mem_cutsOf.2 ⟨⟨h, hadj.symm⟩, hne.symm⟩, (q, p), ?_, ?_⟩
    · unfold endLabels; rw [Dict.get_eq_ok_iff.2 hu, Dict.get_eq_ok_iff.2 hv]; rfl
    · unfold sortPair; simp [hpq]

/-- the labels `p < q` are joined by an edge -/
def Joined (G : Graph V) (a : Assignment V P) (p q : P) : Prop :=
  p < q ∧ ∃ u v, G.Adj u v ∧ a.mapping.get? u = some p ∧ a.mapping.get? v = some q

/-- the split of the districts fails with `ReselectException` in every world -/
def PairFails (method : Method V S) (G : Graph V) (a : Assignment V P) (pop : V → ℚ) (target eps : ℚ) (p q : P) : Prop :=
  ∀ w, ∃ w', recomPair method G a pop target eps (p, q) w = (.error .reselectException, w')

theorem onReselect_fails {α : Type} {m h : M S α} {w w' : S} (hm : m w = (.error .reselectException, w')) :
    M.onReselect m h w = h w' := by
  unfold M.onReselect; rw [hm]

theorem joined_of_cut {G : Graph V} {a : Assignment V P} {e : V × V} (he : e ∈ cutsOf G a.mapping) {pq : P × P}
    (h : endLabels a e = .ok pq) : Joined G a (sortPair pq).1 (sortPair pq).2 := by
  obtain ⟨h1, h2⟩ := ends_of_cut he h
  exact ⟨lt_of_le_of_ne (sortPair_le pq) h1, h2⟩

/-- A step of the loop in which all adjacent pairs fail: the drawn pair is bad afterwards. -/
theorem recomLoop_step {R : Rand S} (hR : R.Valid) {method : Method V S} {G : Graph V} (hG : G.WF) {a : Assignment V P}
    (hcov : a.Covers G.nodes) {pop : V → ℚ} {target eps : ℚ}
    (hfail : ∀ p q, Joined G a p q → PairFails method G a pop target eps p q) (bad : Finset (P × P)) {w w1 : S} {e : V × V}
    (h : R.choice (iterE (cutsOf G a.mapping)) w = (.ok e, w1)) (hlt : bad.card < totPairs a.parts.keys.length) :
    ∃ pq, endLabels a e = .ok pq ∧ Joined G a (sortPair pq).1 (sortPair pq).2 ∧
      ((sortPair pq ∈ bad ∧ ∀ n, recomLoop R method G a (cutsOf G a.mapping) pop target eps (n + 1) bad w =
        recomLoop R method G a (cutsOf G a.mapping) pop target eps n bad w1) ∨
      (sortPair pq ∉ bad ∧ ∃ w2, ∀ n, recomLoop R method G a (cutsOf G a.mapping) pop target eps (n + 1) bad w =
        recomLoop R method G a (cutsOf G a.mapping) pop target eps n (insert (sortPair pq) bad) w2)) := by
  have he : e ∈ cutsOf G a.mapping := mem_iterE.1 (hR.choice_ok h)
  obtain ⟨pq, hpq⟩ := endLabels_total hG hcov (u := e.1) (v := e.2) (mem_cutsOf.1 he).1.2
  have hj := joined_of_cut he hpq
  refine ⟨pq, hpq, hj, ?_⟩
  have key : ∀ n, recomLoop R method G a (cutsOf G a.mapping) pop target eps (n + 1) bad w =
      (if sortPair pq ∈ bad then recomLoop R method G a (cutsOf G a.mapping) pop target eps n bad
        else M.onReselect (recomPair method G a pop target eps (sortPair pq))
          (recomLoop R method G a (cutsOf G a.mapping) pop target eps n (insert (sortPair pq) bad))) w1 := by
    intro n
    rw [recomLoop_succ, if_pos hlt]
    refine (M.bind_ok h).trans ?_
    exact M.bind_ok (show M.lift (endLabels a e) w1 = (.ok pq, w1) by unfold M.lift; rw [hpq])
  by_cases hb : sortPair pq ∈ bad
  · left
    refine ⟨hb, fun n => ?_⟩
    rw [key, if_pos hb]
  · right
    obtain ⟨w2, h2⟩ := hfail _ _ hj w1
    refine ⟨hb, w2, fun n => ?_⟩
    rw [key, if_neg hb]
    exact onReselect_fails h2

/-- **C39** (partial) If every two districts are adjacent and every pair fails to be recombined, `recom` raises
`MetagraphError` after finitely many draws, provided the generator draws every cut edge again and again.  Missing: districts
that are not adjacent, see `C39_endless`. -/
theorem C39_metagraph_error_partial (R : Rand S) (hR : R.Valid) (hfair : R.Fair) (method : Method V S) (G : Graph V) (hG : G.WF)
    (a : Assignment V P) (ha : a.Coherent) (hcov : a.Covers G.nodes) (pop : V → ℚ) (target eps : ℚ)
    (hall : ∀ p ∈ a.parts.keys, ∀ q ∈ a.parts.keys, p < q → Joined G a p q)
    (hfail : ∀ p q, Joined G a p q → PairFails method G a pop target eps p q) (w : S) :
    ∃ n, ∀ fuel, n ≤ fuel →
      (recomLoop R method G a (cutsOf G a.mapping) pop target eps fuel ∅ w).1 = .error .metagraphError := by
  have main : ∀ (d : ℕ) (bad : Finset (P × P)) (w : S), bad ⊆ labelPairs a → totPairs a.parts.keys.length ≤ bad.card + d →
      ∃ n, ∀ fuel, n ≤ fuel →
        (recomLoop R method G a (cutsOf G a.mapping) pop target eps fuel bad w).1 = .error .metagraphError := by
    intro d
    induction d with
    | zero =>
      intro bad w _ hd
      refine ⟨1, fun fuel hf => ?_⟩
      obtain ⟨m, rfl⟩ : ∃ m, fuel = m + 1 := ⟨fuel - 1, by omega⟩
      rw [recomLoop_succ, if_neg (by omega)]
      rfl
    | succ d ih =>
      intro bad w hsub hd
      by_cases hlt : bad.card < totPairs a.parts.keys.length
      · have hx : ∃ x ∈ labelPairs a, x ∉ bad := by
          by_contra hc
          push Not at hc
          have := Finset.card_le_card (show labelPairs a ⊆ bad from hc)
          rw [card_labelPairs ha] at this
          omega
        obtain ⟨⟨p, q⟩, hx1, hx2⟩ := hx
        unfold labelPairs at hx1
        rw [Finset.mem_filter, Finset.mem_product, List.mem_toFinset, List.mem_toFinset] at hx1
        obtain ⟨hlt', u, v, hadj, hu, hv⟩ := hall p hx1.1.1 q hx1.1.2 hx1.2
        obtain ⟨e, he, pq, hpq, hs⟩ := exists_cut_of_joined hlt' hadj hu hv
        have hits := hfair (iterE (cutsOf G a.mapping)) e w (mem_iterE.2 he)
        induction hits with
        | @now w w' h =>
          obtain ⟨pq', h1, h2, ⟨h3, -⟩ | ⟨h3, w2, h4⟩⟩ := recomLoop_step hR hG hcov hfail bad h hlt
          · rw [hpq] at h1; cases h1
            rw [hs] at h3; exact absurd h3 hx2
          · have hm : sortPair pq' ∈ labelPairs a := sortPair_mem_labelPairs ha he h1
            obtain ⟨n, hn⟩ := ih (insert (sortPair pq') bad) w2 (Finset.insert_subset hm hsub) (by
              rw [Finset.card_insert_of_notMem h3]; omega)
            refine ⟨n + 1, fun fuel hf => ?_⟩
            obtain ⟨m, rfl⟩ : ∃ m, fuel = m + 1 := ⟨fuel - 1, by omega⟩
            rw [h4]
            exact hn m (by omega)
        | @later w w' y h _ ih' =>
          obtain ⟨pq', h1, h2, ⟨h3, h4⟩ | ⟨h3, w2, h4⟩⟩ := recomLoop_step hR hG hcov hfail bad h hlt
          · obtain ⟨n, hn⟩ := ih'
            refine ⟨n + 1, fun fuel hf => ?_⟩
            obtain ⟨m, rfl⟩ : ∃ m, fuel = m + 1 := ⟨fuel - 1, by omega⟩
            rw [h4]
            exact hn m (by omega)
          · have hm : sortPair pq' ∈ labelPairs a :=
              sortPair_mem_labelPairs ha (mem_iterE.1 (hR.choice_ok h)) h1
            obtain ⟨n, hn⟩ := ih (insert (sortPair pq') bad) w2 (Finset.insert_subset hm hsub) (by
              rw [Finset.card_insert_of_notMem h3]; omega)
            refine ⟨n + 1, fun fuel hf => ?_⟩
            obtain ⟨m, rfl⟩ : ∃ m, fuel = m + 1 := ⟨fuel - 1, by omega⟩
            rw [h4]
            exact hn m (by omega)
      · refine ⟨1, fun fuel hf => ?_⟩
        obtain ⟨m, rfl⟩ : ∃ m, fuel = m + 1 := ⟨fuel - 1, by omega⟩
        rw [recomLoop_succ, if_neg hlt]
        rfl
  exact main (totPairs a.parts.keys.length) ∅ w (by simp) (by simp)

/-- **C39 is violated** in general: if all adjacent pairs fail but some two districts are not adjacent, the number of bad pairs
never reaches the number of all pairs and the loop never ends, whatever is drawn. -/
theorem C39_endless (R : Rand S) (hR : R.Valid) (method : Method V S) (G : Graph V) (hG : G.WF)
    (a : Assignment V P) (ha : a.Coherent) (hcov : a.Covers G.nodes) (pop : V → ℚ) (target eps : ℚ)
    (hsome : ∃ p q, Joined G a p q)
    (hapart : ∃ p ∈ a.parts.keys, ∃ q ∈ a.parts.keys, p < q ∧ ¬ Joined G a p q)
    (hfail : ∀ p q, Joined G a p q → PairFails method G a pop target eps p q) (fuel : ℕ) (w : S) :
    (recomLoop R method G a (cutsOf G a.mapping) pop target eps fuel ∅ w).1 = .error .outOfFuel := by
  obtain ⟨p, hp, q, hq, hpq, hnj⟩ := hapart
  obtain ⟨p1, q1, hlt1, u, v, hadj, hu, hv⟩ := hsome
  obtain ⟨e1, he1, -⟩ := exists_cut_of_joined hlt1 hadj hu hv
  have main : ∀ (fuel : ℕ) (bad : Finset (P × P)) (w : S), bad ⊆ labelPairs a → (∀ x ∈ bad, Joined G a x.1 x.2) →
      (recomLoop R method G a (cutsOf G a.mapping) pop target eps fuel bad w).1 = .error .outOfFuel := by
    intro fuel
    induction fuel with
    | zero => intro bad w _ _; rfl
    | succ n ih =>
      intro bad w hsub hj
      have hlt : bad.card < totPairs a.parts.keys.length := by
        rw [← card_labelPairs ha]
        apply Finset.card_lt_card
        refine ⟨hsub, fun h => hnj (hj (p, q) (h ?_))⟩
        unfold labelPairs
        rw [Finset.mem_filter, Finset.mem_product, List.mem_toFinset, List.mem_toFinset]
        exact ⟨⟨hp, hq⟩, hpq⟩
      obtain ⟨e, he, w1, h1⟩ := hR.choice_mem (iterE (cutsOf G a.mapping)) w (by
        intro h
        have := mem_iterE.2 he1
        rw [h] at this; cases this)
      obtain ⟨pq, g1, g2, ⟨-, g4⟩ | ⟨-, w2, g4⟩⟩ := recomLoop_step hR hG hcov hfail bad h1 hlt
      · rw [g4]; exact ih bad w1 hsub hj
      · rw [g4]
        refine ih _ w2 (Finset.insert_subset (sortPair_mem_labelPairs ha (mem_iterE.1 he) g1) hsub) ?_
        intro x hx
        rcases Finset.mem_insert.1 hx with rfl | hx
        · exact g2
        · exact hj x hx
  exact main fuel ∅ w (by simp) (by simp)

/-- **C39** Whatever fails, the loop raises `MetagraphError` only when every pair of districts is adjacent and has failed. -/
theorem C39_only_if (R : Rand S) (hR : R.Valid) (method : Method V S) (G : Graph V) (hG : G.WF)
    (a : Assignment V P) (ha : a.Coherent) (hcov : a.Covers G.nodes) (pop : V → ℚ) (target eps : ℚ)
    (hm : ∀ p q w w', recomPair method G a pop target eps (p, q) w ≠ (.error .metagraphError, w')) (fuel : ℕ) (w w' : S)
    (h : recomLoop R method G a (cutsOf G a.mapping) pop target eps fuel ∅ w = (.error .metagraphError, w')) :
    ∀ p ∈ a.parts.keys, ∀ q ∈ a.parts.keys, p < q → Joined G a p q ∧
      ∃ w1 w2, recomPair method G a pop target eps (p, q) w1 = (.error .reselectException, w2) := by
  have main : ∀ (fuel : ℕ) (bad : Finset (P × P)) (w : S), bad ⊆ labelPairs a →
      (∀ x ∈ bad, Joined G a x.1 x.2 ∧ ∃ w1 w2, recomPair method G a pop target eps x w1 = (.error .reselectException, w2)) →
      recomLoop R method G a (cutsOf G a.mapping) pop target eps fuel bad w = (.error .metagraphError, w') →
      ∀ x ∈ labelPairs a, Joined G a x.1 x.2 ∧
        ∃ w1 w2, recomPair method G a pop target eps x w1 = (.error .reselectException, w2) := by
    intro fuel
    induction fuel with
    | zero => intro bad w _ _ h; cases h
    | succ n ih =>
      intro bad w hsub hj h
      rw [recomLoop_succ] at h
      by_cases hlt : bad.card < totPairs a.parts.keys.length
      · rw [if_pos hlt] at h
        rcases M.bind_eq_error h with h1 | ⟨e, w1, h1, g1⟩
        · exfalso
          by_cases hn : iterE (cutsOf G a.mapping) = []
          · rw [hn] at h1
            obtain ⟨s', h'⟩ := hR.choice_nil (α := V × V) w
            rw [h'] at h1; cases h1
          · obtain ⟨x, -, s', h'⟩ := hR.choice_mem _ w hn
            rw [h'] at h1; cases h1
        have he : e ∈ cutsOf G a.mapping := mem_iterE.1 (hR.choice_ok h1)
        obtain ⟨pq, hpq⟩ := endLabels_total hG hcov (u := e.1) (v := e.2) (mem_cutsOf.1 he).1.2
        rcases M.bind_eq_error g1 with h2 | ⟨pq', w2, h2, g2⟩
        · have hx := (Prod.mk.inj h2).1
          rw [hpq] at hx; cases hx
        have h2' := (M.lift_eq_ok h2).1
        have hw2 := (M.lift_eq_ok h2).2
        rw [hpq] at h2'; cases h2'
        by_cases hb : sortPair pq ∈ bad
        · rw [if_pos hb] at g2
          exact ih bad w2 hsub hj g2
        · rw [if_neg hb] at g2
          rcases M.onReselect_eq g2 with ⟨w3, k1, k2⟩ | ⟨k1, -⟩
          · refine ih _ w3 (Finset.insert_subset (sortPair_mem_labelPairs ha he hpq) hsub) ?_ k2
            intro x hx
            rcases Finset.mem_insert.1 hx with rfl | hx
            · exact ⟨joined_of_cut he hpq, w2, w3, k1⟩
            · exact hj x hx
          · exact absurd k1 (hm _ _ _ _)
      · intro x hx
        have : bad = labelPairs a := Finset.eq_of_subset_of_card_le hsub (by rw [card_labelPairs ha]; omega)
        rw [← this] at hx
        exact hj x hx
  intro p hp q hq hpq
  refine main fuel ∅ w (by simp) (by simp) h (p, q) ?_
  unfold labelPairs
  rw [Finset.mem_filter, Finset.mem_product, List.mem_toFinset, List.mem_toFinset]
  exact ⟨⟨hp, hq⟩, hpq⟩

/-! ### `bipartition_tree` with pair reselection -/

/-- With `allow_pair_reselection`, `bipartition_tree` raises `ReselectException` in every world on a connected graph with at
least three nodes that has no balanced bipartition into connected sets. -/
theorem bipMethod_reselects {A : Type} [DecidableEq A] (R : Rand S) (hR : R.Valid) (nodeRepeats m : ℕ)
    (attr : String → V → Option A) (fuel : ℕ) (hf : m < fuel) (pop : V → ℚ) (H : Graph V) (hH : H.WF)
    (hconn : ConnectedOn H H.nodes) (h3 : 3 ≤ H.nodes.card) (target eps : ℚ)
    (hno : ¬ ∃ B, GoodBipartition H pop target eps false B) (w : S) :
    ∃ w', bipMethod R (randomSpanningTree R attr none) nodeRepeats (some m) attr none true fuel pop H target eps false w =
      (.error .reselectException, w') := by
  set cfg : BipConfig V S := ⟨randomSpanningTree R attr none, memoBalance R false, nodeRepeats, some m⟩ with hcfg
  have hout := C34_outcomes cfg m rfl H pop target eps true
    (fun w => by
      obtain ⟨t, w', g1, g2, -⟩ := C42_random_spanning_tree hR attr none H hH hconn w
      exact ⟨t, w', g1, g2⟩)
    (fun t w ht => by
      obtain ⟨cuts, w', g1, -⟩ := C32_memoization ht.tree (by rw [ht.nodes]; exact h3) R hR t.weight pop target eps
        (fuel := 2 * t.graph.nodes.card) le_rfl w
      rw [ht.nodes] at g1
      refine ⟨cuts, w', ?_⟩
      show cutsMemoization R (2 * t.graph.nodes.card) _ false w = _
      rw [ht.nodes]
      exact g1)
    (fun _ => regionChoice R attr none)
    (fun h cuts w hc => by
      obtain ⟨c, -, w', g⟩ := hR.choice_mem cuts w hc
      exact ⟨c, w', g⟩)
    none (by simp) fuel hf w
  rcases hb : bipartitionTree cfg (fun _ => regionChoice R attr none) true fuel none H pop target eps w with ⟨e | B, w'⟩
  · rw [hb] at hout
    rcases hout with ⟨B, hB⟩ | he
    · cases hB
    · simp only [if_true] at he
      cases he
      refine ⟨w', ?_⟩
      unfold bipMethod
      exact M.bind_error hb
  · exfalso
    refine hno ⟨B, ?_⟩
    exact C34_default R hR (randomSpanningTree R attr none) (spanOk_random hR attr none) nodeRepeats (some m) attr none false true
      fuel (memoBalance R) (Or.inl rfl) H hH hconn pop target eps w w' B hb

/-- the pair of districts fails when the method raises `ReselectException` on their union -/
theorem pairFails_of_method {method : Method V S} {G : Graph V} (hG : G.WF) {a : Assignment V P} {pop : V → ℚ} {target eps : ℚ} {p q : P}
    {s t : Finset V} (hs : a.parts.get? p = some s) (ht : a.parts.get? q = some t)
    (h : ∀ w, ∃ w', method (G.subgraph (s ∪ t)) target eps false w = (.error .reselectException, w')) :
    PairFails method G a pop target eps p q := by
  intro w
  obtain ⟨w', hw⟩ := h w
  refine ⟨w', ?_⟩
  unfold recomPair mergedNodes
  rw [Dict.get_eq_ok_iff.2 hs, Dict.get_eq_ok_iff.2 ht]
  refine (M.bind_ok (show (M.lift (Except.ok (s ∪ t)) : M S (Finset V)) w = (.ok (s ∪ t), w) from rfl)).trans ?_
  show lastTwo method (G.subgraph (s ∪ t)) pop target eps p q Dict.empty (G.subgraph (s ∪ t)).nodes w = _
  unfold lastTwo
  rw [Graph.subgraph_self (hG.subgraph _)]
  exact M.bind_error hw

/-! ### Examples -/

/-- the generator that goes through every list in turn -/
def turnRand : Rand ℕ where
  choice := fun l s => match l[s % l.length]? with
    | some x => (.ok x, s + 1)
    | none => (.error .indexError, s + 1)
  random := fun s => (.ok (1 / 2), s + 1)

theorem turnRand_choice {α : Type} (l : List α) (hl : l ≠ []) (s : ℕ) :
    turnRand.choice l s = (.ok (l[s % l.length]'(Nat.mod_lt _ (List.length_pos_iff.2 hl))), s + 1) := by
  show (match l[s % l.length]? with | some x => _ | none => _) = _
  rw [List.getElem?_eq_getElem (Nat.mod_lt _ (List.length_pos_iff.2 hl))]

theorem turnRand_valid : turnRand.Valid where
  choice_mem := fun l s hl => ⟨_, List.getElem_mem _, s + 1, turnRand_choice l hl s⟩
  choice_nil := fun s => ⟨s + 1, by simp [turnRand]⟩
  random_ok := fun s => ⟨1 / 2, s + 1, rfl, by norm_num, by norm_num⟩

theorem turnRand_fair : turnRand.Fair := by
  intro α l x w hx
  have hl : l ≠ [] := by rintro rfl; cases hx
  obtain ⟨i, hi, rfl⟩ := List.mem_iff_getElem.1 hx
  have gen : ∀ (d w : ℕ), (w + d) % l.length = i → Hits turnRand l l[i] w := by
    intro d
    induction d with
    | zero =>
      intro w hw
      refine .now (w' := w + 1) ?_
      rw [turnRand_choice l hl]
      simp only [Nat.add_zero] at hw
      simp [hw]
    | succ d ih =>
      intro w hw
      exact .later (turnRand_choice l hl w) (ih (w + 1) (by rw [← hw]; congr 1; omega))
  refine gen (i + (l.length - w % l.length)) w ?_
  have hlt := Nat.mod_lt w (List.length_pos_iff.2 hl)
  have h1 := Nat.div_add_mod w l.length
  have : w + (i + (l.length - w % l.length)) = i + l.length * (w / l.length + 1) := by
    rw [Nat.mul_add, Nat.mul_one]; omega
  rw [this, Nat.add_mul_mod_self_left, Nat.mod_eq_of_lt hi]

/-- three districts of two nodes in a row -/
def linePlan : Assignment ℕ ℕ :=
  ⟨⟨[(1, {0, 1}), (2, {2, 3}), (3, {4, 5})]⟩, ⟨[(0, 1), (1, 1), (2, 2), (3, 2), (4, 3), (5, 3)]⟩⟩

theorem linePlan_get (v : ℕ) : linePlan.mapping.get? v = if v = 0 ∨ v = 1 then some 1 else if v = 2 ∨ v = 3 then some 2
    else if v = 4 ∨ v = 5 then some 3 else none := by
  by_cases h : v < 6
  · interval_cases v <;> decide
  · have h1 : linePlan.mapping.get? v = none := by
      rw [← Option.not_isSome_iff_eq_none, Dict.get?_isSome_iff]
      simp [linePlan, Dict.keys]; omega
    rw [h1, if_neg (by omega), if_neg (by omega), if_neg (by omega)]

theorem linePlan_coherent : linePlan.Coherent where
  parts_wf := by unfold Dict.WF; decide
  mapping_wf := by unfold Dict.WF; decide
  agree := by
    intro p s hs v
    rw [linePlan_get]
    have hp : p ∈ linePlan.parts.keys := Dict.mem_keys_iff.2 ⟨s, hs⟩
    simp only [linePlan, Dict.keys, List.map_cons, List.map_nil, List.mem_cons, List.not_mem_nil, or_false] at hp
    rcases hp with rfl | rfl | rfl <;> cases hs <;> simp only [Finset.mem_insert, Finset.mem_singleton] <;> split_ifs <;>
      simp <;> omega
  complete := by
    intro v p h
    rw [linePlan_get] at h
    split_ifs at h <;> cases h <;> decide

theorem linePlan_covers : linePlan.Covers exLine.nodes := by
  intro v
  show v ∈ [0, 1, 2, 3, 4, 5] ↔ v ∈ ({0, 1, 2, 3, 4, 5} : Finset ℕ)
  simp

theorem exLine_wf : exLine.WF := ⟨by decide, by decide, by decide⟩

theorem linePlan_joined {p q : ℕ} (h : Joined exLine linePlan p q) : (p = 1 ∧ q = 2) ∨ (p = 2 ∧ q = 3) := by
  obtain ⟨hlt, u, v, ha, hu, hv⟩ := h
  rw [linePlan_get] at hu hv
  have hadj : (u, v) ∈ exLine.edges ∨ (v, u) ∈ exLine.edges := ha
  simp only [exLine, Finset.mem_insert, Finset.mem_singleton, Prod.mk.injEq] at hadj
  rcases hadj with hadj | hadj <;> rcases hadj with ⟨rfl, rfl⟩ | ⟨rfl, rfl⟩ | ⟨rfl, rfl⟩ | ⟨rfl, rfl⟩ | ⟨rfl, rfl⟩ <;>
    simp at hu hv <;> omega

/-- two unit districts that are to have population 3: not possible with 4 nodes -/
theorem no_three_of_four {H : Graph ℕ} (hc : H.nodes.card = 4) : ¬ ∃ B, GoodBipartition H (fun _ => 1) 3 0 false B := by
  rintro ⟨B, h1, -, -, h4, h5⟩
  have h5 := h5 rfl
  unfold Near popOf at h4 h5
  simp only [Finset.sum_const, nsmul_eq_mul, mul_one, zero_mul, abs_nonpos_iff, sub_eq_zero] at h4 h5
  have h6 := Finset.card_sdiff_add_card_eq_card h1
  have h7 : B.card = 3 := by exact_mod_cast h4
  have h8 : (H.nodes \ B).card = 3 := by exact_mod_cast h5
  omega

/-- **C39 is violated**: `recom` with `bipartition_tree(allow_pair_reselection=True)` on three districts of two nodes in a row,
with the target population 3 for every district, never returns, for every generator and every number of attempts. -/
theorem C39_violation {A : Type} [DecidableEq A] (R : Rand S) (hR : R.Valid) (nodeRepeats m : ℕ) (attr : String → ℕ → Option A)
    (bipFuel : ℕ) (hf : m < bipFuel) (fuel : ℕ) (w : S) :
    (recomLoop R (bipMethod R (randomSpanningTree R attr none) nodeRepeats (some m) attr none true bipFuel (fun _ => 1)) exLine
      linePlan (cutsOf exLine linePlan.mapping) (fun _ => 1) 3 0 fuel ∅ w).1 = .error .outOfFuel := by
  refine C39_endless R hR _ exLine exLine_wf linePlan linePlan_coherent linePlan_covers _ 3 0
    ⟨1, 2, by decide, 1, 2, by decide, by decide, by decide⟩
    ⟨1, by decide, 3, by decide, by decide, fun h => by rcases linePlan_joined h with h | h <;> omega⟩ ?_ fuel w
  intro p q hj
  rcases linePlan_joined hj with ⟨rfl, rfl⟩ | ⟨rfl, rfl⟩
  · refine pairFails_of_method exLine_wf (s := {0, 1}) (t := {2, 3}) rfl rfl (fun w => ?_)
    refine bipMethod_reselects R hR nodeRepeats m attr bipFuel hf _ _ (exLine_wf.subgraph _) ?_ (by decide) 3 0
      (no_three_of_four (by decide)) w
    rw [← nxIsConnected_true (exLine_wf.subgraph _)]; decide +kernel
  · refine pairFails_of_method exLine_wf (s := {2, 3}) (t := {4, 5}) rfl rfl (fun w => ?_)
    refine bipMethod_reselects R hR nodeRepeats m attr bipFuel hf _ _ (exLine_wf.subgraph _) ?_ (by decide) 3 0
      (no_three_of_four (by decide)) w
    rw [← nxIsConnected_true (exLine_wf.subgraph _)]; decide +kernel

/-- two districts of two nodes: every pair is adjacent -/
def pathPlan : Assignment ℕ ℕ := ⟨⟨[(1, {0, 1}), (2, {2})]⟩, ⟨[(0, 1), (1, 1), (2, 2)]⟩⟩

/-- C39_metagraph_error_partial: two adjacent districts of three nodes in total and target 5; the generator is fair, the pair
fails, and `MetagraphError` is raised -/
example : turnRand.Valid ∧ turnRand.Fair ∧
    (∀ p ∈ pathPlan.parts.keys, ∀ q ∈ pathPlan.parts.keys, p < q → Joined exPath pathPlan p q) ∧
    (recomLoop turnRand (bipMethod turnRand (randomSpanningTree turnRand (fun _ _ => (none : Option ℕ)) none) 1 (some 2)
      (fun _ _ => (none : Option ℕ)) none true 3 (fun _ => 1)) exPath pathPlan (cutsOf exPath pathPlan.mapping) (fun _ => 1) 5 0 3 ∅ 0).1 =
    .error .metagraphError := by
  refine ⟨turnRand_valid, turnRand_fair, ?_, by decide +kernel⟩
  intro p hp q hq hpq
  simp only [pathPlan, Dict.keys, List.map_cons, List.map_nil, List.mem_cons, List.not_mem_nil, or_false] at hp hq
  obtain ⟨rfl, rfl⟩ : p = 1 ∧ q = 2 := by omega
  exact ⟨by decide, 1, 2, by decide, by decide, by decide⟩

end GC

import Verif.Props.RecomLaw
import Verif.Props.Ergodic

/-!
# The chain of plans made by `recom`

The probability that `recom` goes from one plan to another, as a function of the two plans, for any law of the spanning trees; staying at the same plan is
included.  With a bounded number of attempts these probabilities are multiplied by the probability that the attempts find a tree that can be cut.
-/

set_option linter.unusedSectionVars false
set_option autoImplicit false

namespace GC

variable {V P : Type} [LinearOrder V] [LinearOrder P]

/-- the edges of the graph between different members of `D` -/
def between (G : Graph V) (D : Finset (Finset V)) : Finset (V × V) :=
  G.edges.filter (fun e => e.1 ∈ D.biUnion id ∧ e.2 ∈ D.biUnion id ∧ ∀ X ∈ D, ¬ (e.1 ∈ X ∧ e.2 ∈ X))

/-- the districts at the ends of an edge -/
def touching (Q : Finset (Finset V)) (e : V × V) : Finset (Finset V) := Q.filter (fun X => e.1 ∈ X ∨ e.2 ∈ X)

/-- The probability that a tree of the nodes of `D`, drawn with the law `μ`, has exactly one edge between the members of `D` and that this edge is chosen among
its balanced edges -/
noncomputable def drawChance (G : Graph V) (pop : V → ℚ) (target eps : ℚ) (μ : Finset V → Finset (V × V) → ℚ) (D : Finset (Finset V)) : ℚ :=
  ∑ E ∈ (treeSets (G.subgraph (D.biUnion id))).filter (fun E => (E ∩ between G D).card = 1),
    μ (D.biUnion id) E / ((balancedEdges (D.biUnion id) E pop target eps).card : ℚ)

/-- the probability that the districts `D` of the plan `Q` are split in such a way that the plan `X` results, given that a tree that can be cut is found -/
noncomputable def resplitChance (G : Graph V) (pop : V → ℚ) (target eps : ℚ) (μ : Finset V → Finset (V × V) → ℚ) (Q D X : Finset (Finset V)) : ℚ :=
  if Q \ D ⊆ X then drawChance G pop target eps μ (X \ (Q \ D)) / cutChance G pop target eps μ (D.biUnion id) else 0

/-- The probability that `recom` goes from the plan `Q` to the plan `X`: a cut edge is drawn uniformly, and the districts at its ends are split. -/
noncomputable def recomKernel (G : Graph V) (pop : V → ℚ) (target eps : ℚ) (μ : Finset V → Finset (V × V) → ℚ) (Q X : Finset (Finset V)) : ℚ :=
  (∑ e ∈ between G Q, resplitChance G pop target eps μ Q (touching Q e) X) / ((between G Q).card : ℚ)

/-- the same with `m` attempts, `r` with each tree -/
noncomputable def recomKernelIn (r m : ℕ) (G : Graph V) (pop : V → ℚ) (target eps : ℚ) (μ : Finset V → Finset (V × V) → ℚ) (Q X : Finset (Finset V)) : ℚ :=
  (∑ e ∈ between G Q, resplitChance G pop target eps μ Q (touching Q e) X * seenChance r m G pop target eps μ ((touching Q e).biUnion id)) /
    ((between G Q).card : ℚ)

/-! ### The districts at the ends of an edge -/

section combinatorics
variable {G : Graph V} {pop : V → ℚ} {target eps : ℚ} {k : ℕ} {Q X : Finset (Finset V)} {μ : Finset V → Finset (V × V) → ℚ}

theorem biUnion_pair (A B : Finset V) : ({A, B} : Finset (Finset V)).biUnion id = A ∪ B := by
  rw [Finset.biUnion_insert, Finset.singleton_biUnion]
  rfl

theorem between_pair {A B : Finset V} (hAB : Disjoint A B) : between G {A, B} = seamOf G A B := by
  ext e
  unfold between
  rw [Finset.mem_filter, mem_seamOf, biUnion_pair]
  refine and_congr_right (fun _ => ?_)
  have h1 : e.1 ∈ A → e.1 ∉ B := fun h => Finset.disjoint_left.1 hAB h
  have h2 : e.2 ∈ A → e.2 ∉ B := fun h => Finset.disjoint_left.1 hAB h
  simp only [Finset.mem_union, Finset.mem_insert, Finset.mem_singleton, forall_eq_or_imp, forall_eq]
  tauto

theorem drawChance_pair {A B : Finset V} (hAB : Disjoint A B) : drawChance G pop target eps μ {A, B} = splitChance G pop target eps μ A B := by
  unfold drawChance splitChance
  rw [biUnion_pair, between_pair hAB]

theorem mem_between (hQ : IsPartition G.nodes Q) (hG : G.WF) {e : V × V} : e ∈ between G Q ↔ e ∈ G.edges ∧ ∀ X ∈ Q, ¬ (e.1 ∈ X ∧ e.2 ∈ X) := by
  unfold between
  rw [Finset.mem_filter]
  constructor
  · rintro ⟨h1, -, -, h2⟩; exact ⟨h1, h2⟩
  · rintro ⟨h1, h2⟩
    obtain ⟨m1, m2⟩ := hG.mem_of_adj (u := e.1) (v := e.2) (.inl h1)
    obtain ⟨X, hX, hx⟩ := (hQ.cover _).1 m1
    obtain ⟨Y, hY, hy⟩ := (hQ.cover _).1 m2
    exact ⟨h1, Finset.mem_biUnion.2 ⟨X, hX, hx⟩, Finset.mem_biUnion.2 ⟨Y, hY, hy⟩, h2⟩

theorem touching_eq (hQ : IsPartition G.nodes Q) {s t : Finset V} (hs : s ∈ Q) (ht : t ∈ Q) {e : V × V} (h1 : e.1 ∈ s) (h2 : e.2 ∈ t) :
    touching Q e = {s, t} := by
  ext X
  unfold touching
  rw [Finset.mem_filter, Finset.mem_insert, Finset.mem_singleton]
  constructor
  · rintro ⟨hX, h | h⟩
    · exact .inl (hQ.disj X hX s hs _ h h1)
    · exact .inr (hQ.disj X hX t ht _ h h2)
  · rintro (rfl | rfl)
    · exact ⟨hs, .inl h1⟩
    · exact ⟨ht, .inr h2⟩

/-- a cut edge has its ends in two districts -/
theorem exists_touching (hQ : IsPartition G.nodes Q) (hG : G.WF) {e : V × V} (he : e ∈ between G Q) :
    ∃ s ∈ Q, ∃ t ∈ Q, s ≠ t ∧ e.1 ∈ s ∧ e.2 ∈ t ∧ touching Q e = {s, t} := by
  obtain ⟨h1, h2⟩ := (mem_between hQ hG).1 he
  obtain ⟨m1, m2⟩ := hG.mem_of_adj (u := e.1) (v := e.2) (.inl h1)
  obtain ⟨s, hs, hs'⟩ := (hQ.cover _).1 m1
  obtain ⟨t, ht, ht'⟩ := (hQ.cover _).1 m2
  refine ⟨s, hs, t, ht, ?_, hs', ht', touching_eq hQ hs ht hs' ht'⟩
  rintro rfl
  exact h2 s hs ⟨hs', ht'⟩

theorem touching_sort (Q : Finset (Finset V)) (e : V × V) : touching Q (sortPair e) = touching Q e := by
  unfold touching
  refine Finset.filter_congr (fun X _ => ?_)
  rcases sortPair_eq_or e with h | h <;> rw [h]
  exact or_comm

/-- sums over the cut edges of an assignment -/
theorem sum_cuts (hG : G.WF) {a : Assignment V P} (ha : a.Coherent) (hQ : IsPartition G.nodes a.plan) (φ : V × V → ℚ) (hφ : ∀ e, φ (sortPair e) = φ e) :
    ∑ e ∈ cutsOf G a.mapping, φ e = ∑ e ∈ between G a.plan, φ e ∧ (cutsOf G a.mapping).card = (between G a.plan).card := by
  have hmem : ∀ e ∈ G.edges, (a.mapping.get? e.1 ≠ a.mapping.get? e.2 ↔ ∀ X ∈ a.plan, ¬ (e.1 ∈ X ∧ e.2 ∈ X)) := by
    intro e he
    constructor
    · rintro hne X hX ⟨h1, h2⟩
      obtain ⟨p, hp⟩ := (mem_plan ha).1 hX
      exact hne (((ha.agree p X hp _).1 h1).trans ((ha.agree p X hp _).1 h2).symm)
    · intro h heq
      obtain ⟨m1, -⟩ := hG.mem_of_adj (u := e.1) (v := e.2) (.inl he)
      obtain ⟨X, hX, hx⟩ := (hQ.cover _).1 m1
      obtain ⟨p, hp⟩ := (mem_plan ha).1 hX
      refine h X hX ⟨hx, (ha.agree p X hp _).2 ?_⟩
      rw [← heq]
      exact (ha.agree p X hp _).1 hx
  have himg : cutsOf G a.mapping = (between G a.plan).image sortPair := by
    ext e
    unfold cutsOf
    rw [Finset.mem_filter, Finset.mem_image, Finset.mem_image]
    constructor
    · rintro ⟨⟨e', he', rfl⟩, hcut⟩
      refine ⟨e', (mem_between hQ hG).2 ⟨he', (hmem e' he').1 ?_⟩, rfl⟩
      rcases sortPair_eq_or e' with h | h <;> rw [h] at hcut
      · exact hcut
      · exact hcut.symm
    · rintro ⟨e', he', rfl⟩
      obtain ⟨h1, h2⟩ := (mem_between hQ hG).1 he'
      refine ⟨⟨e', h1, rfl⟩, ?_⟩
      have := (hmem e' h1).2 h2
      rcases sortPair_eq_or e' with h | h <;> rw [h]
      · exact this
      · exact this.symm
  have hinj : Set.InjOn sortPair (between G a.plan : Set (V × V)) := by
    intro e he e' he' hee
    exact sortPair_injOn hG ((mem_between hQ hG).1 he).1 ((mem_between hQ hG).1 he').1 hee
  rw [himg, Finset.card_image_of_injOn hinj, Finset.sum_image hinj]
  exact ⟨Finset.sum_congr rfl (fun e _ => hφ e), rfl⟩

/-- the members of a plan that replace two districts of another one -/
theorem replaced_pair (hQ : IsPlan G pop target eps k Q) (hX : IsPlan G pop target eps k X) {s t : Finset V} (hs : s ∈ Q) (ht : t ∈ Q) (hst : s ≠ t)
    (hsub : Q \ {s, t} ⊆ X) : ∃ A B, A ≠ B ∧ X \ (Q \ {s, t}) = {A, B} ∧ A ∈ X ∧ B ∈ X ∧ A ∪ B = s ∪ t ∧ Disjoint A B ∧ A.Nonempty ∧ B.Nonempty ∧
      ∀ S ⊆ s ∪ t, S.Nonempty → ((s ∪ t) \ S).Nonempty → ((Q \ {s, t}) ∪ {S, (s ∪ t) \ S} = X ↔ S = A ∨ S = B) := by
  have hpair : ({s, t} : Finset (Finset V)) ⊆ Q := by
    intro Y hY
    rw [Finset.mem_insert, Finset.mem_singleton] at hY
    rcases hY with rfl | rfl <;> assumption
  have hcard : (X \ (Q \ {s, t})).card = 2 := by
    rw [Finset.card_sdiff_of_subset hsub, Finset.card_sdiff_of_subset hpair, Finset.card_pair hst, hX.2.1, hQ.2.1]
    have := Finset.card_le_card hpair
    rw [Finset.card_pair hst, hQ.2.1] at this
    omega
  obtain ⟨A, B, hAB, hD⟩ := Finset.card_eq_two.1 hcard
  have hA : A ∈ X ∧ A ∉ Q \ {s, t} := Finset.mem_sdiff.1 (by rw [hD]; simp)
  have hB : B ∈ X ∧ B ∉ Q \ {s, t} := Finset.mem_sdiff.1 (by rw [hD]; simp)
  have hXe : X = (Q \ {s, t}) ∪ {A, B} := by rw [← hD, Finset.union_sdiff_of_subset hsub]
  have hdis : Disjoint A B := Finset.disjoint_left.2 (fun x h1 h2 => hAB (hX.1.disj A hA.1 B hB.1 x h1 h2))
  have hunion : A ∪ B = s ∪ t := by
    ext v
    constructor
    · intro hv
      have hvX : ∃ C ∈ X, C ∉ Q \ {s, t} ∧ v ∈ C := by
        rcases Finset.mem_union.1 hv with h | h
        · exact ⟨A, hA.1, hA.2, h⟩
        · exact ⟨B, hB.1, hB.2, h⟩
      obtain ⟨C, hC, hCn, hvC⟩ := hvX
      obtain ⟨Y, hY, hvY⟩ := (hQ.1.cover v).1 ((hX.1.cover v).2 ⟨C, hC, hvC⟩)
      by_cases hYp : Y ∈ ({s, t} : Finset (Finset V))
      · rw [Finset.mem_insert, Finset.mem_singleton] at hYp
        rcases hYp with rfl | rfl
        · exact Finset.mem_union_left _ hvY
        · exact Finset.mem_union_right _ hvY
      · have hY' : Y ∈ Q \ {s, t} := Finset.mem_sdiff.2 ⟨hY, hYp⟩
        have := hX.1.disj C hC Y (hsub hY') v hvC hvY
        exact absurd (this ▸ hY') hCn
    · intro hv
      have hvQ : ∃ Y ∈ ({s, t} : Finset (Finset V)), v ∈ Y := by
        rcases Finset.mem_union.1 hv with h | h
        · exact ⟨s, by simp, h⟩
        · exact ⟨t, by simp, h⟩
      obtain ⟨Y, hY, hvY⟩ := hvQ
      obtain ⟨C, hC, hvC⟩ := (hX.1.cover v).1 ((hQ.1.cover v).2 ⟨Y, hpair hY, hvY⟩)
      rw [hXe, Finset.mem_union] at hC
      rcases hC with hC | hC
      · obtain ⟨h1, h2⟩ := Finset.mem_sdiff.1 hC
        have := hQ.1.disj C h1 Y (hpair hY) v hvC hvY
        exact absurd (this ▸ hY) h2
      · rw [Finset.mem_insert, Finset.mem_singleton] at hC
        rcases hC with rfl | rfl
        · exact Finset.mem_union_left _ hvC
        · exact Finset.mem_union_right _ hvC
  refine ⟨A, B, hAB, hD, hA.1, hB.1, hunion, hdis, hX.1.nonempty A hA.1, hX.1.nonempty B hB.1, fun S hS hS0 hS1 => ?_⟩
  have hnot : ∀ Z : Finset V, Z ⊆ s ∪ t → Z.Nonempty → Z ∉ Q \ {s, t} := by
    rintro Z hZ ⟨z, hz⟩ hZQ
    obtain ⟨h1, h2⟩ := Finset.mem_sdiff.1 hZQ
    apply h2
    rw [Finset.mem_insert, Finset.mem_singleton]
    rcases Finset.mem_union.1 (hZ hz) with h | h
    · exact .inl (hQ.1.disj Z h1 s hs z hz h)
    · exact .inr (hQ.1.disj Z h1 t ht z hz h)
  constructor
  · intro he
    have hSX : S ∈ X := by rw [← he]; simp
    rw [hXe, Finset.mem_union] at hSX
    rcases hSX with h | h
    · exact absurd h (hnot S hS hS0)
    · simpa using h
  · rw [hXe, ← hunion]
    rintro (h | h)
    · rw [h, Finset.union_sdiff_cancel_left hdis]
    · rw [h, Finset.union_sdiff_cancel_right hdis, Finset.pair_comm B A]

end combinatorics

/-! ### Positive probabilities that add up to one -/

/-- probabilities of the spanning trees of the connected parts of the graph -/
structure TreeChances (G : Graph V) (μ : Finset V → Finset (V × V) → ℚ) : Prop where
  sum : ∀ U ⊆ G.nodes, ConnectedOn G U → ∑ E ∈ treeSets (G.subgraph U), μ U E = 1
  pos : ∀ U ⊆ G.nodes, ConnectedOn G U → ∀ E ∈ treeSets (G.subgraph U), 0 < μ U E

/-- The assumptions about the graph: it is connected, there are at least two districts, and two districts that touch have at least three nodes together, for
every plan.  (With two nodes the code raises `IndexError`, see C78.) -/
structure RecomSetting (G : Graph V) (pop : V → ℚ) (target eps : ℚ) (k : ℕ) : Prop where
  wf : G.WF
  two : 2 ≤ k
  conn : ConnectedOn G G.nodes
  room : ∀ Q ∈ plans G pop target eps k, RoomToCut G Q

section kernel
variable {G : Graph V} {pop : V → ℚ} {target eps : ℚ} {k : ℕ} {Q X : Finset (Finset V)} {μ : Finset V → Finset (V × V) → ℚ}

/-- replacing two districts by two others -/
theorem split_isPlan (hQ : IsPlan G pop target eps k Q) {s t S T : Finset V} (hs : s ∈ Q) (ht : t ∈ Q) (hst : s ≠ t) (hU : S ∪ T = s ∪ t) (hd : Disjoint S T)
    (hS : ConnectedOn G S ∧ Near target eps (popOf pop S)) (hT : ConnectedOn G T ∧ Near target eps (popOf pop T)) :
    IsPlan G pop target eps k ((Q \ {s, t}) ∪ {S, T}) := by
  have hpair : ({s, t} : Finset (Finset V)) ⊆ Q := by
    intro Y hY
    rw [Finset.mem_insert, Finset.mem_singleton] at hY
    rcases hY with rfl | rfl <;> assumption
  have hmem : ∀ Y, Y ∈ (Q \ {s, t}) ∪ {S, T} ↔ (Y ∈ Q ∧ Y ≠ s ∧ Y ≠ t) ∨ Y = S ∨ Y = T := by
    intro Y
    simp only [Finset.mem_union, Finset.mem_sdiff, Finset.mem_insert, Finset.mem_singleton, not_or]
  have hout : ∀ Y, Y ∈ Q → Y ≠ s → Y ≠ t → ∀ x ∈ Y, x ∉ S ∪ T := by
    intro Y hY h1 h2 x hx hx'
    rw [hU, Finset.mem_union] at hx'
    rcases hx' with hx' | hx'
    · exact h1 (hQ.1.disj Y hY s hs x hx hx')
    · exact h2 (hQ.1.disj Y hY t ht x hx hx')
  have hne : S ≠ T := by
    rintro rfl
    obtain ⟨x, hx⟩ := hS.1.1
    exact Finset.disjoint_left.1 hd hx hx
  have hfresh : ∀ Y : Finset V, Y.Nonempty → Y ⊆ S ∪ T → Y ∉ Q \ {s, t} := by
    rintro Y ⟨y, hy⟩ hY h
    simp only [Finset.mem_sdiff, Finset.mem_insert, Finset.mem_singleton, not_or] at h
    exact hout Y h.1 h.2.1 h.2.2 y hy (hY hy)
  refine ⟨⟨?_, ?_, ?_⟩, ?_, ?_⟩
  · intro Y hY
    rcases (hmem Y).1 hY with h | rfl | rfl
    · exact hQ.1.nonempty Y h.1
    · exact hS.1.1
    · exact hT.1.1
  · intro Y hY Z hZ x h1 h2
    rcases (hmem Y).1 hY with hy | hy | hy <;> rcases (hmem Z).1 hZ with hz | hz | hz
    · exact hQ.1.disj Y hy.1 Z hz.1 x h1 h2
    · exact absurd (Finset.mem_union_left _ (hz ▸ h2)) (hout Y hy.1 hy.2.1 hy.2.2 x h1)
    · exact absurd (Finset.mem_union_right _ (hz ▸ h2)) (hout Y hy.1 hy.2.1 hy.2.2 x h1)
    · exact absurd (Finset.mem_union_left _ (hy ▸ h1)) (hout Z hz.1 hz.2.1 hz.2.2 x h2)
    · rw [hy, hz]
    · exact absurd (hz ▸ h2) (Finset.disjoint_left.1 hd (hy ▸ h1))
    · exact absurd (Finset.mem_union_right _ (hy ▸ h1)) (hout Z hz.1 hz.2.1 hz.2.2 x h2)
    · exact absurd (hy ▸ h1) (Finset.disjoint_left.1 hd (hz ▸ h2))
    · rw [hy, hz]
  · intro x
    rw [hQ.1.cover x]
    constructor
    · rintro ⟨Y, hY, hx⟩
      by_cases hY' : Y = s ∨ Y = t
      · have : x ∈ S ∪ T := by
          rw [hU, Finset.mem_union]
          rcases hY' with rfl | rfl
          · exact .inl hx
          · exact .inr hx
        rcases Finset.mem_union.1 this with h | h
        · exact ⟨S, (hmem S).2 (.inr (.inl rfl)), h⟩
        · exact ⟨T, (hmem T).2 (.inr (.inr rfl)), h⟩
      · rw [not_or] at hY'
        exact ⟨Y, (hmem Y).2 (.inl ⟨hY, hY'⟩), hx⟩
    · rintro ⟨Y, hY, hx⟩
      have key : x ∈ S ∪ T → ∃ Z ∈ Q, x ∈ Z := by
        rw [hU, Finset.mem_union]
        rintro (h | h)
        · exact ⟨s, hs, h⟩
        · exact ⟨t, ht, h⟩
      rcases (hmem Y).1 hY with h | rfl | rfl
      · exact ⟨Y, h.1, hx⟩
      · exact key (Finset.mem_union_left _ hx)
      · exact key (Finset.mem_union_right _ hx)
  · rw [Finset.card_union_of_disjoint, Finset.card_sdiff_of_subset hpair, Finset.card_pair hst, Finset.card_pair hne, hQ.2.1]
    · have := Finset.card_le_card hpair
      rw [Finset.card_pair hst, hQ.2.1] at this
      omega
    · rw [Finset.disjoint_right]
      intro Y hY
      rw [Finset.mem_insert, Finset.mem_singleton] at hY
      rcases hY with rfl | rfl
      · exact hfresh _ hS.1.1 Finset.subset_union_left
      · exact hfresh _ hT.1.1 Finset.subset_union_right
  · intro Y hY
    rcases (hmem Y).1 hY with h | rfl | rfl
    · exact hQ.2.2 Y h.1
    · exact hS
    · exact hT

/-- the two sides of a cut of the list -/
theorem CutList.sides (hG : G.WF) {U : Finset V} (hU : U ⊆ G.nodes) {E : Finset (V × V)} (hE : E ∈ treeSets (G.subgraph U))
    {cuts : List (Cut V)} (hc : CutList G U E pop target eps cuts) {c : Cut V} (hcm : c ∈ cuts) :
    (ConnectedOn G c.subset ∧ Near target eps (popOf pop c.subset)) ∧
      (ConnectedOn G (U \ c.subset) ∧ Near target eps (popOf pop (U \ c.subset))) := by
  obtain ⟨hsub, htr⟩ := (mem_treeSets hU).1 hE
  obtain ⟨hbal, hside⟩ := hc.sound c hcm
  obtain ⟨hadj, A, B, hA, hB, nA, nB⟩ := hbal
  have hBe := hB.unique hside
  obtain ⟨Y, hY, hY'⟩ := side_compl htr hadj.symm
  have hAe : A = U \ c.subset := by
    have := hA.unique hY'
    rw [this, hY.unique hside]
  have hmono : ∀ u v, (⟨U, E⟩ : Graph V).Adj u v → G.Adj u v := by
    rintro u v (h | h)
    · exact .inl (hsub _ h).1
    · exact .inr (hsub _ h).1
  refine ⟨⟨(side_connected htr hadj.symm hside).mono_edges hmono, hBe ▸ nB⟩, ?_⟩
  rw [← hAe]
  exact ⟨(side_connected htr hadj hA).mono_edges hmono, nA⟩

/-- every tree with at least three nodes has its list of balanced cuts -/
theorem exists_cutList {U : Finset V} (hU : U ⊆ G.nodes) (h3 : 3 ≤ U.card) {E : Finset (V × V)} (hE : E ∈ treeSets (G.subgraph U)) :
    ∃ cuts, CutList G U E pop target eps cuts := by
  obtain ⟨-, htr⟩ := (mem_treeSets hU).1 hE
  rcases memo_on_tree (G := G) (N := 1) (pop := pop) (target := target) (eps := eps) Nat.one_pos htr (fun _ _ => none) [] with ⟨-, cuts, w', -, hc⟩ | ⟨h2, -⟩
  · exact ⟨cuts, hc⟩
  · omega

theorem sum_list_comm {ι κ : Type} (S : Finset ι) (l : List κ) (f : ι → κ → ℚ) :
    ∑ x ∈ S, (l.map (f x)).sum = (l.map (fun c => ∑ x ∈ S, f x c)).sum := by
  induction l with
  | nil => simp
  | cons c l ih => simp only [List.map_cons, List.sum_cons, Finset.sum_add_distrib, ih]

theorem seam_card_pos {A B : Finset V} {u v : V} (hu : u ∈ A) (hv : v ∈ B) (h : G.Adj u v) : 0 < (seamOf G A B).card := by
  rcases h with h | h
  · exact Finset.card_pos.2 ⟨(u, v), mem_seamOf.2 ⟨h, .inl ⟨hu, hv⟩⟩⟩
  · exact Finset.card_pos.2 ⟨(v, u), mem_seamOf.2 ⟨h, .inr ⟨hv, hu⟩⟩⟩

/-- adjacent districts are split back with positive probability -/
theorem splitChance_pos (hG : G.WF) (hμ : TreeChances G μ) {A B : Finset V} (hAB : Disjoint A B) (hA : A ⊆ G.nodes) (hB : B ⊆ G.nodes) (cA : ConnectedOn G A)
    (cB : ConnectedOn G B) (hcon : ConnectedOn G (A ∪ B)) (nA : Near target eps (popOf pop A)) (nB : Near target eps (popOf pop B)) :
    0 < splitChance G pop target eps μ A B ∧ 0 < cutChance G pop target eps μ (A ∪ B) := by
  classical
  have hU := Finset.union_subset hA hB
  obtain ⟨u, hu, v, hv, huv⟩ := exists_edge_between hcon cA.1 cB.1 hAB
  have hcard := card_trees_one_seam hG hAB hA hB cA.1 cB.1
  have hpos : 0 < ((treeSets (G.subgraph (A ∪ B))).filter (fun E => (E ∩ seamOf G A B).card = 1)).card := by
    rw [hcard]
    exact Nat.mul_pos (Nat.mul_pos (numTrees_pos' hG hA cA) (numTrees_pos' hG hB cB)) (seam_card_pos hu hv huv)
  obtain ⟨E, hE⟩ := Finset.card_pos.1 hpos
  have hbal : ∀ E ∈ (treeSets (G.subgraph (A ∪ B))).filter (fun E => (E ∩ seamOf G A B).card = 1), 0 < (balancedEdges (A ∪ B) E pop target eps).card := by
    intro E hE
    obtain ⟨h1, h2⟩ := Finset.mem_filter.1 hE
    exact seam_balanced hG hAB hA hB cA.1 cB.1 nA nB h1 h2
  constructor
  · unfold splitChance
    refine Finset.sum_pos (fun E hE => div_pos (hμ.pos _ hU hcon E (Finset.mem_filter.1 hE).1) ?_) ⟨E, hE⟩
    exact_mod_cast hbal E hE
  · unfold cutChance
    refine Finset.sum_pos (fun E hE => hμ.pos _ hU hcon E (Finset.mem_filter.1 hE).1) ⟨E, ?_⟩
    rw [Finset.mem_filter]
    exact ⟨(Finset.mem_filter.1 hE).1, (Finset.card_pos.1 (hbal E hE)).ne_empty⟩

theorem cutChance_le_one' (hμ : TreeChances G μ) {U : Finset V} (hU : U ⊆ G.nodes) (hcon : ConnectedOn G U) : cutChance G pop target eps μ U ≤ 1 := by
  classical
  rw [← hμ.sum U hU hcon]
  unfold cutChance
  exact Finset.sum_le_sum_of_subset_of_nonneg (Finset.filter_subset _ _) (fun E hE _ => (hμ.pos U hU hcon E hE).le)

/-- the ways to split two districts add up -/
theorem sum_resplit (hG : G.WF) (hμ : TreeChances G μ) (hQ : IsPlan G pop target eps k Q) {s t : Finset V} (hs : s ∈ Q) (ht : t ∈ Q) (hst : s ≠ t)
    (hcon : ConnectedOn G (s ∪ t)) (h3 : 3 ≤ (s ∪ t).card) : ∑ X ∈ plans G pop target eps k, resplitChance G pop target eps μ Q {s, t} X = 1 := by
  classical
  have hU : s ∪ t ⊆ G.nodes := Finset.union_subset (hQ.sub hs) (hQ.sub ht)
  have hdst : Disjoint s t := Finset.disjoint_left.2 (fun x h1 h2 => hst (hQ.1.disj s hs t ht x h1 h2))
  have hcut := (splitChance_pos (pop := pop) (target := target) (eps := eps) hG hμ hdst (hQ.sub hs) (hQ.sub ht) (hQ.2.2 s hs).1 (hQ.2.2 t ht).1 hcon
    (hQ.2.2 s hs).2 (hQ.2.2 t ht).2).2
  set T := treeSets (G.subgraph (s ∪ t)) with hT
  have hex : ∀ E, ∃ cuts, E ∈ T → CutList G (s ∪ t) E pop target eps cuts := by
    intro E
    by_cases hE : E ∈ T
    · obtain ⟨cuts, hc⟩ := exists_cutList (pop := pop) (target := target) (eps := eps) hU h3 hE
      exact ⟨cuts, fun _ => hc⟩
    · exact ⟨[], fun h => absurd h hE⟩
  choose cuts hcuts using hex
  have hlen : ∀ E ∈ T, (cuts E).length = (balancedEdges (s ∪ t) E pop target eps).card :=
    fun E hE => (hcuts E hE).length ((mem_treeSets hU).1 hE).2.wf
  set lands : Finset (Finset V) → Cut V → ℚ := fun X c => if (Q \ {s, t}) ∪ {c.subset, (s ∪ t) \ c.subset} = X then 1 else 0 with hlands
  have hone : ∀ X ∈ plans G pop target eps k, resplitChance G pop target eps μ Q {s, t} X * cutChance G pop target eps μ (s ∪ t) =
      ∑ E ∈ T, μ (s ∪ t) E / ((balancedEdges (s ∪ t) E pop target eps).card : ℚ) * ((cuts E).map (lands X)).sum := by
    intro X hX
    rw [mem_plans] at hX
    unfold resplitChance
    rw [biUnion_pair]
    by_cases hsub : Q \ {s, t} ⊆ X
    · rw [if_pos hsub, div_mul_cancel₀ _ hcut.ne']
      obtain ⟨A, B, hAB, hD, hA, hB, hunion, hdis, hA0, hB0, hmatch⟩ := replaced_pair hQ hX hs ht hst hsub
      rw [hD, drawChance_pair hdis]
      unfold splitChance
      rw [hunion, Finset.sum_filter]
      refine Finset.sum_congr rfl (fun E hE => ?_)
      have hgain : (cuts E).map (lands X) = (cuts E).map (fun c => if c.subset = A ∨ c.subset = B then (1 : ℚ) else 0) := by
        refine List.map_congr_left (fun c hcm => ?_)
        obtain ⟨m1, m2, m3, -⟩ := (hcuts E hE).split hG hU hE hcm
        rw [hlands]
        simp only [hmatch c.subset m1 m2 m3]
      have hE' : E ∈ treeSets (G.subgraph (A ∪ B)) := by rw [hunion]; exact hE
      have hc' := hcuts E hE
      rw [← hunion] at hc'
      have hcount := count_cuts hG hdis (hX.sub hA) (hX.sub hB) hA0 hB0 (hX.2.2 A hA).2 (hX.2.2 B hB).2 hE' hc'.nodup hc'.sound hc'.all
      rw [hgain, sum_map_ite, hcount]
      split_ifs <;> simp
    · rw [if_neg hsub, zero_mul]
      symm
      refine Finset.sum_eq_zero (fun E hE => ?_)
      have : (cuts E).map (lands X) = (cuts E).map (fun _ => (0 : ℚ)) := by
        refine List.map_congr_left (fun c hcm => ?_)
        rw [hlands]
        refine if_neg (fun he => hsub ?_)
        rw [← he]
        exact Finset.subset_union_left
      rw [this]
      simp
  have htotal : (∑ X ∈ plans G pop target eps k, resplitChance G pop target eps μ Q {s, t} X) * cutChance G pop target eps μ (s ∪ t) =
      cutChance G pop target eps μ (s ∪ t) := by
    rw [Finset.sum_mul, Finset.sum_congr rfl hone, Finset.sum_comm]
    unfold cutChance
    rw [Finset.sum_filter]
    refine Finset.sum_congr rfl (fun E hE => ?_)
    rw [← Finset.mul_sum, sum_list_comm]
    have : (cuts E).map (fun c => ∑ X ∈ plans G pop target eps k, lands X c) = (cuts E).map (fun _ => (1 : ℚ)) := by
      refine List.map_congr_left (fun c hcm => ?_)
      obtain ⟨m1, m2, m3, -⟩ := (hcuts E hE).split hG hU hE hcm
      obtain ⟨g1, g2⟩ := (hcuts E hE).sides hG hU hE hcm
      rw [hlands]
      dsimp only
      rw [Finset.sum_ite_eq, if_pos]
      exact mem_plans.2 (split_isPlan hQ hs ht hst (Finset.union_sdiff_of_subset m1) Finset.disjoint_sdiff g1 g2)
    rw [this]
    simp only [List.map_const', List.sum_replicate, nsmul_eq_mul, mul_one]
    rw [hlen E hE]
    by_cases hb : balancedEdges (s ∪ t) E pop target eps = ∅
    · rw [hb]
      simp
    · rw [if_pos hb, div_mul_cancel₀]
      have := Finset.card_pos.2 (Finset.nonempty_iff_ne_empty.2 hb)
      exact_mod_cast this.ne'
  exact mul_right_cancel₀ hcut.ne' (by rw [htotal, one_mul])

/-- what is known of the districts at the ends of a cut edge -/
theorem cut_pair (hs : RecomSetting G pop target eps k) (hQ : IsPlan G pop target eps k Q) {e : V × V} (he : e ∈ between G Q) :
    ∃ s ∈ Q, ∃ t ∈ Q, s ≠ t ∧ touching Q e = {s, t} ∧ ConnectedOn G (s ∪ t) ∧ 3 ≤ (s ∪ t).card ∧ s ∪ t ⊆ G.nodes ∧ Disjoint s t := by
  obtain ⟨s, hs', t, ht', hst, h1, h2, htch⟩ := exists_touching hQ.1 hs.wf he
  have hadj : G.Adj e.1 e.2 := .inl ((mem_between hQ.1 hs.wf).1 he).1
  exact ⟨s, hs', t, ht', hst, htch, connectedOn_union (hQ.2.2 s hs').1 (hQ.2.2 t ht').1 h1 h2 hadj,
    hs.room Q (mem_plans.2 hQ) s hs' t ht' hst ⟨_, h1, _, h2, hadj⟩, Finset.union_subset (hQ.sub hs') (hQ.sub ht'),
    Finset.disjoint_left.2 (fun x h1 h2 => hst (hQ.1.disj s hs' t ht' x h1 h2))⟩

theorem between_nonempty (hs : RecomSetting G pop target eps k) (hQ : IsPlan G pop target eps k Q) : (between G Q).Nonempty := by
  have h2 : 1 < Q.card := by rw [hQ.2.1]; exact hs.two
  obtain ⟨s, hs', t, ht', hst⟩ := Finset.one_lt_card.1 h2
  obtain ⟨u, hu⟩ := hQ.1.nonempty s hs'
  obtain ⟨v, hv⟩ := hQ.1.nonempty t ht'
  have hvs : v ∉ s := fun h => hst (hQ.1.disj s hs' t ht' v h hv)
  obtain ⟨x, hx, y, hy, hxy⟩ := crossing_edge (X := G.nodes) (A := s) (B := G.nodes \ s) (by rw [Finset.union_sdiff_of_subset (hQ.sub hs')])
    Finset.disjoint_sdiff hu (Finset.mem_sdiff.2 ⟨hQ.sub ht' hv, hvs⟩) (hs.conn.2 u (hQ.sub hs' hu) v (hQ.sub ht' hv))
  have hys := (Finset.mem_sdiff.1 hy).2
  have hno : ∀ Y ∈ Q, ¬ (x ∈ Y ∧ y ∈ Y) := by
    rintro Y hY ⟨h1, h2⟩
    rw [hQ.1.disj Y hY s hs' x h1 hx] at h2
    exact hys h2
  rcases hxy with h | h
  · exact ⟨(x, y), (mem_between hQ.1 hs.wf).2 ⟨h, hno⟩⟩
  · exact ⟨(y, x), (mem_between hQ.1 hs.wf).2 ⟨h, fun Y hY hh => hno Y hY ⟨hh.2, hh.1⟩⟩⟩

theorem between_card_pos (hs : RecomSetting G pop target eps k) (hQ : IsPlan G pop target eps k Q) : (0 : ℚ) < (between G Q).card := by
  exact_mod_cast Finset.card_pos.2 (between_nonempty hs hQ)

/-- a pair of districts can be cut -/
theorem cutChance_pair_pos (hG : G.WF) (hμ : TreeChances G μ) (hQ : IsPlan G pop target eps k Q) {s t : Finset V} (hs : s ∈ Q) (ht : t ∈ Q) (hst : s ≠ t)
    (hcon : ConnectedOn G (s ∪ t)) : 0 < cutChance G pop target eps μ (s ∪ t) :=
  (splitChance_pos hG hμ (Finset.disjoint_left.2 (fun x h1 h2 => hst (hQ.1.disj s hs t ht x h1 h2))) (hQ.sub hs) (hQ.sub ht) (hQ.2.2 s hs).1
    (hQ.2.2 t ht).1 hcon (hQ.2.2 s hs).2 (hQ.2.2 t ht).2).2

theorem resplit_cases (hs : RecomSetting G pop target eps k) (hμ : TreeChances G μ) (hQ : IsPlan G pop target eps k Q) (hX : IsPlan G pop target eps k X)
    {e : V × V} (he : e ∈ between G Q) :
    (Q \ touching Q e ⊆ X → 0 < resplitChance G pop target eps μ Q (touching Q e) X) ∧ 0 ≤ resplitChance G pop target eps μ Q (touching Q e) X := by
  obtain ⟨s, hs', t, ht', hst, htch, hcon, h3, hU, -⟩ := cut_pair hs hQ he
  have key : Q \ touching Q e ⊆ X → 0 < resplitChance G pop target eps μ Q (touching Q e) X := by
    intro hsub
    unfold resplitChance
    rw [if_pos hsub]
    rw [htch] at hsub ⊢
    obtain ⟨A, B, hAB, hD, hA, hB, hunion, hdis, hA0, hB0, -⟩ := replaced_pair hQ hX hs' ht' hst hsub
    rw [hD, drawChance_pair hdis, biUnion_pair]
    refine div_pos ?_ (cutChance_pair_pos hs.wf hμ hQ hs' ht' hst hcon)
    exact (splitChance_pos hs.wf hμ hdis (hX.sub hA) (hX.sub hB) (hX.2.2 A hA).1 (hX.2.2 B hB).1 (by rw [hunion]; exact hcon) (hX.2.2 A hA).2
      (hX.2.2 B hB).2).1
  refine ⟨key, ?_⟩
  by_cases hsub : Q \ touching Q e ⊆ X
  · exact (key hsub).le
  · unfold resplitChance
    rw [if_neg hsub]

theorem recomKernel_nonneg (hs : RecomSetting G pop target eps k) (hμ : TreeChances G μ) (hQ : IsPlan G pop target eps k Q) (hX : IsPlan G pop target eps k X) :
    0 ≤ recomKernel G pop target eps μ Q X :=
  div_nonneg (Finset.sum_nonneg (fun _ he => (resplit_cases hs hμ hQ hX he).2)) (Nat.cast_nonneg _)

theorem recomKernel_pos (hs : RecomSetting G pop target eps k) (hμ : TreeChances G μ) (hQ : IsPlan G pop target eps k Q) (hX : IsPlan G pop target eps k X)
    {e : V × V} (he : e ∈ between G Q) (hsub : Q \ touching Q e ⊆ X) : 0 < recomKernel G pop target eps μ Q X :=
  div_pos (Finset.sum_pos' (fun _ he => (resplit_cases hs hμ hQ hX he).2) ⟨e, he, (resplit_cases hs hμ hQ hX he).1 hsub⟩) (between_card_pos hs hQ)

/-- the plan can stay the same -/
theorem recomKernel_self_pos (hs : RecomSetting G pop target eps k) (hμ : TreeChances G μ) (hQ : IsPlan G pop target eps k Q) :
    0 < recomKernel G pop target eps μ Q Q := by
  obtain ⟨e, he⟩ := between_nonempty hs hQ
  exact recomKernel_pos hs hμ hQ hQ he Finset.sdiff_subset

/-- every plan in which two districts are different can be reached -/
theorem recomKernel_exchange_pos (hs : RecomSetting G pop target eps k) (hμ : TreeChances G μ) (hQ : IsPlan G pop target eps k Q)
    (hX : IsPlan G pop target eps k X) (h : Exchange Q X) : 0 < recomKernel G pop target eps μ Q X := by
  have hcon := exchange_connected hQ hX h
  obtain ⟨s, t, hst, hD⟩ := Finset.card_eq_two.1 h.1
  rw [hD, biUnion_pair] at hcon
  have hs' : s ∈ Q \ X := by rw [hD]; simp
  have ht' : t ∈ Q \ X := by rw [hD]; simp
  rw [Finset.mem_sdiff] at hs' ht'
  have hdis : Disjoint s t := Finset.disjoint_left.2 (fun x h1 h2 => hst (hQ.1.disj s hs'.1 t ht'.1 x h1 h2))
  obtain ⟨u, hu, v, hv, huv⟩ := exists_edge_between hcon (hQ.1.nonempty s hs'.1) (hQ.1.nonempty t ht'.1) hdis
  have hsub : Q \ {s, t} ⊆ X := by
    rw [← hD]
    intro Y hY
    rw [Finset.mem_sdiff, Finset.mem_sdiff, not_and, not_not] at hY
    exact hY.2 hY.1
  have hno : ∀ Y ∈ Q, ¬ (u ∈ Y ∧ v ∈ Y) := by
    rintro Y hY ⟨h1, h2⟩
    rw [hQ.1.disj Y hY s hs'.1 u h1 hu] at h2
    exact Finset.disjoint_left.1 hdis h2 hv
  rcases huv with h | h
  · exact recomKernel_pos hs hμ hQ hX (e := (u, v)) ((mem_between hQ.1 hs.wf).2 ⟨h, hno⟩) (by rw [touching_eq hQ.1 hs'.1 ht'.1 hu hv]; exact hsub)
  · exact recomKernel_pos hs hμ hQ hX (e := (v, u)) ((mem_between hQ.1 hs.wf).2 ⟨h, fun Y hY hh => hno Y hY ⟨hh.2, hh.1⟩⟩)
      (by rw [touching_eq hQ.1 ht'.1 hs'.1 hv hu, Finset.pair_comm]; exact hsub)

/-- a plan that keeps all districts but two -/
theorem rest_exchange (hQ : IsPlan G pop target eps k Q) (hX : IsPlan G pop target eps k X) {s t : Finset V} (hs' : s ∈ Q) (ht' : t ∈ Q) (hst : s ≠ t)
    (hsub : Q \ {s, t} ⊆ X) : X = Q ∨ Exchange Q X := by
  by_cases hno : X = Q
  · exact .inl hno
  obtain ⟨A, B, hAB, hD, hA, hB, hunion, hdis, hA0, hB0, hmatch⟩ := replaced_pair hQ hX hs' ht' hst hsub
  have hAs : A ⊆ s ∪ t := by rw [← hunion]; exact Finset.subset_union_left
  have hBe : (s ∪ t) \ A = B := by rw [← hunion]; exact Finset.union_sdiff_cancel_left hdis
  have hplan := (hmatch A hAs hA0 (by rw [hBe]; exact hB0)).2 (.inl rfl)
  rw [hBe] at hplan
  obtain ⟨h1, h2⟩ := (replaced_iff hQ.1 (Ne.symm hno) hs' ht' hunion hdis hA0 hB0).1 hplan
  exact .inr ⟨by rw [h1, Finset.card_pair hst], by rw [h2, Finset.card_pair hAB]⟩

/-- only these plans can be reached -/
theorem recomKernel_step (hs : RecomSetting G pop target eps k) (hQ : IsPlan G pop target eps k Q) (hX : IsPlan G pop target eps k X)
    (h : recomKernel G pop target eps μ Q X ≠ 0) : X = Q ∨ Exchange Q X := by
  by_contra hno
  apply h
  unfold recomKernel
  rw [Finset.sum_eq_zero, zero_div]
  intro e he
  obtain ⟨s, hs', t, ht', hst, htch, hcon, h3, hU, hdst⟩ := cut_pair hs hQ he
  unfold resplitChance
  refine if_neg (fun hsub => hno ?_)
  rw [htch] at hsub
  exact rest_exchange hQ hX hs' ht' hst hsub

/-- the probabilities add up to one -/
theorem sum_recomKernel (hs : RecomSetting G pop target eps k) (hμ : TreeChances G μ) (hQ : IsPlan G pop target eps k Q) :
    ∑ X ∈ plans G pop target eps k, recomKernel G pop target eps μ Q X = 1 := by
  unfold recomKernel
  rw [← Finset.sum_div, Finset.sum_comm]
  have : ∀ e ∈ between G Q, ∑ X ∈ plans G pop target eps k, resplitChance G pop target eps μ Q (touching Q e) X = 1 := by
    intro e he
    obtain ⟨s, hs', t, ht', hst, htch, hcon, h3, -⟩ := cut_pair hs hQ he
    rw [htch]
    exact sum_resplit hs.wf hμ hQ hs' ht' hst hcon h3
  rw [Finset.sum_congr rfl this, Finset.sum_const, nsmul_eq_mul, mul_one, div_self (between_card_pos hs hQ).ne']

end kernel

end GC

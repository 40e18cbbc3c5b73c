import Verif.Lemmas.Tape
import Verif.Lemmas.TreeSplit
import Verif.Props.ReversibleRecom

/-!
# Unlabelled plans and the cuts that lead from one to another
-/

set_option linter.unusedSectionVars false
set_option autoImplicit false

namespace GC

variable {V P : Type} [LinearOrder V] [LinearOrder P]

/-- The districts of a plan without their labels -/
def Assignment.plan (a : Assignment V P) : Finset (Finset V) := a.parts.values.toFinset

/-- disjoint nonempty sets that cover the nodes -/
structure IsPartition (nodes : Finset V) (Q : Finset (Finset V)) : Prop where
  nonempty : ∀ X ∈ Q, X.Nonempty
  disj : ∀ X ∈ Q, ∀ Y ∈ Q, ∀ x, x ∈ X → x ∈ Y → X = Y
  cover : ∀ x, x ∈ nodes ↔ ∃ X ∈ Q, x ∈ X

theorem mem_plan {a : Assignment V P} (ha : a.Coherent) {X : Finset V} : X ∈ a.plan ↔ ∃ p, a.parts.get? p = some X := by
  unfold Assignment.plan Dict.values
  rw [List.mem_toFinset, List.mem_map]
  constructor
  · rintro ⟨⟨p, Y⟩, h, rfl⟩
    exact ⟨p, (Dict.mem_entries_iff ha.parts_wf).1 h⟩
  · rintro ⟨p, h⟩
    exact ⟨(p, X), (Dict.mem_entries_iff ha.parts_wf).2 h, rfl⟩

theorem isPartition_plan {G : Graph V} {a : Assignment V P} (ha : a.Coherent) (hcov : a.Covers G.nodes) (hc : ContiguousPlan G a) :
    IsPartition G.nodes a.plan := by
  refine ⟨?_, ?_, ?_⟩
  · intro X hX
    obtain ⟨p, hp⟩ := (mem_plan ha).1 hX
    exact (hc p X hp).1
  · intro X hX Y hY x hx hx'
    obtain ⟨p, hp⟩ := (mem_plan ha).1 hX
    obtain ⟨q, hq⟩ := (mem_plan ha).1 hY
    rw [ha.agree p X hp] at hx
    rw [ha.agree q Y hq, hx] at hx'
    cases hx'
    rw [hp] at hq
    exact Option.some.inj hq
  · intro x
    rw [← hcov x, Dict.mem_keys_iff]
    constructor
    · rintro ⟨p, hp⟩
      obtain ⟨X, hX⟩ := Dict.mem_keys_iff.1 (ha.complete _ _ hp)
      exact ⟨X, (mem_plan ha).2 ⟨p, hX⟩, (ha.agree p X hX x).2 hp⟩
    · rintro ⟨X, hX, hx⟩
      obtain ⟨p, hp⟩ := (mem_plan ha).1 hX
      exact ⟨p, (ha.agree p X hp x).1 hx⟩

/-- different labels have different districts -/
theorem label_unique {G : Graph V} {a : Assignment V P} (ha : a.Coherent) (hc : ContiguousPlan G a) {p q : P} {X : Finset V}
    (hp : a.parts.get? p = some X) (hq : a.parts.get? q = some X) : p = q := by
  obtain ⟨x, hx⟩ := (hc p X hp).1
  have h1 := (ha.agree p X hp x).1 hx
  have h2 := (ha.agree q X hq x).1 hx
  rw [h1] at h2
  exact Option.some.inj h2

theorem card_plan {G : Graph V} {a : Assignment V P} (ha : a.Coherent) (hc : ContiguousPlan G a) : a.plan.card = a.parts.keys.length := by
  unfold Assignment.plan Dict.values Dict.keys
  rw [List.toFinset_card_of_nodup, List.length_map, List.length_map]
  have hn : (a.parts.entries.map Prod.fst).Nodup := ha.parts_wf
  refine List.Nodup.map_on ?_ (List.Nodup.of_map _ hn)
  rintro ⟨p, X⟩ h ⟨q, Y⟩ h' heq
  simp only at heq
  subst heq
  have e := label_unique ha hc ((Dict.mem_entries_iff ha.parts_wf).1 h) ((Dict.mem_entries_iff ha.parts_wf).1 h')
  rw [e]

section partition
variable {nodes : Finset V} {Q Q' : Finset (Finset V)}

theorem partition_diff (h : IsPartition nodes Q) (h' : IsPartition nodes Q') : (Q \ Q').biUnion id = (Q' \ Q).biUnion id := by
  have half : ∀ {Q Q' : Finset (Finset V)}, IsPartition nodes Q → IsPartition nodes Q' → ∀ x, x ∈ (Q \ Q').biUnion id → x ∈ (Q' \ Q).biUnion id := by
    intro Q Q' h h' x hx
    rw [Finset.mem_biUnion] at hx ⊢
    obtain ⟨X, hX, hx⟩ := hx
    rw [Finset.mem_sdiff] at hX
    obtain ⟨Y, hY, hxY⟩ := (h'.cover x).1 ((h.cover x).2 ⟨X, hX.1, hx⟩)
    refine ⟨Y, Finset.mem_sdiff.2 ⟨hY, fun hYQ => hX.2 ?_⟩, hxY⟩
    rw [h.disj X hX.1 Y hYQ x hx hxY]
    exact hY
  ext x
  exact ⟨half h h' x, half h' h x⟩

/-- Replacing two parts by two others gives the partition `Q'` exactly when these are the parts by which `Q` and `Q'` differ. -/
theorem replaced_iff (h : IsPartition nodes Q) (hne : Q ≠ Q') {s t S T : Finset V} (hs : s ∈ Q) (ht : t ∈ Q) (hU : S ∪ T = s ∪ t)
    (hd : Disjoint S T) (hS : S.Nonempty) (hT : T.Nonempty) :
    (Q \ {s, t}) ∪ {S, T} = Q' ↔ Q \ Q' = {s, t} ∧ Q' \ Q = {S, T} := by
  have hfresh : ∀ X, X ∈ Q \ {s, t} → X ≠ S ∧ X ≠ T := by
    intro X hX
    rw [Finset.mem_sdiff, Finset.mem_insert, Finset.mem_singleton, not_or] at hX
    have key : ∀ Z : Finset V, Z ⊆ s ∪ t → Z.Nonempty → X ≠ Z := by
      rintro Z hZ ⟨z, hz⟩ rfl
      rcases Finset.mem_union.1 (hZ hz) with h1 | h1
      · exact hX.2.1 (h.disj X hX.1 s hs z hz h1)
      · exact hX.2.2 (h.disj X hX.1 t ht z hz h1)
    exact ⟨key S (hU ▸ Finset.subset_union_left) hS, key T (hU ▸ Finset.subset_union_right) hT⟩
  constructor
  · intro hQ
    -- neither of the new parts is an old one
    have hnew : ¬ (({S, T} : Finset (Finset V)) = {s, t}) := by
      intro heq
      apply hne
      rw [← hQ, heq]
      rw [Finset.sdiff_union_of_subset]
      intro X hX
      rw [Finset.mem_insert, Finset.mem_singleton] at hX
      rcases hX with rfl | rfl
      · exact hs
      · exact ht
    have hcomp : ∀ Z W X Y : Finset V, Z ∪ W = X ∪ Y → Disjoint Z W → Disjoint X Y → Z = X → W = Y := by
      rintro Z W X Y hU hd hd' rfl
      ext x
      have := Finset.ext_iff.1 hU x
      rw [Finset.mem_union, Finset.mem_union] at this
      have h1 : x ∈ Z → x ∉ W := fun hx => Finset.disjoint_left.1 hd hx
      have h2 : x ∈ Z → x ∉ Y := fun hx => Finset.disjoint_left.1 hd' hx
      tauto
    have hst : s ≠ t → Disjoint s t := by
      intro hst
      rw [Finset.disjoint_left]
      intro x hx hx'
      exact hst (h.disj s hs t ht x hx hx')
    have notOld : S ∉ Q ∧ T ∉ Q := by
      by_cases hst' : s = t
      · -- a single part: the new parts are proper subsets
        subst hst'
        have proper : ∀ Z W : Finset V, Z ∪ W = s ∪ s → Disjoint Z W → Z.Nonempty → W.Nonempty → Z ∉ Q := by
          rintro Z W hZW hdis ⟨z, hz⟩ ⟨w, hw⟩ hZQ
          rw [Finset.union_self] at hZW
          have hzs : z ∈ s := hZW ▸ Finset.mem_union_left _ hz
          have hws : w ∈ s := hZW ▸ Finset.mem_union_right _ hw
          have := h.disj Z hZQ s hs z hz hzs
          rw [← this] at hws
          exact Finset.disjoint_left.1 hdis hws hw
        exact ⟨proper S T hU hd hS hT, proper T S (by rw [Finset.union_comm]; exact hU) hd.symm hT hS⟩
      · have hdst := hst hst'
        have main : ∀ Z W : Finset V, Z ∪ W = s ∪ t → Disjoint Z W → Z.Nonempty → ({Z, W} : Finset (Finset V)) ≠ {s, t} → Z ∉ Q := by
          rintro Z W hZW hdis ⟨z, hz⟩ hne' hZQ
          have hzU : z ∈ s ∪ t := hZW ▸ Finset.mem_union_left _ hz
          rcases Finset.mem_union.1 hzU with h1 | h1
          · have e := h.disj Z hZQ s hs z hz h1
            exact hne' (by rw [e, hcomp Z W s t hZW hdis hdst e])
          · have e := h.disj Z hZQ t ht z hz h1
            refine hne' ?_
            rw [e, hcomp Z W t s (by rw [hZW, Finset.union_comm]) hdis hdst.symm e, Finset.pair_comm]
        refine ⟨main S T hU hd hS hnew, main T S (by rw [Finset.union_comm]; exact hU) hd.symm hT ?_⟩
        rw [Finset.pair_comm]; exact hnew
    subst hQ
    constructor
    · ext X
      simp only [Finset.mem_sdiff, Finset.mem_union, Finset.mem_insert, Finset.mem_singleton]
      constructor
      · rintro ⟨hX, hX'⟩
        by_contra hc
        exact hX' (.inl ⟨hX, hc⟩)
      · intro hX
        have hXQ : X ∈ Q := by
          rcases hX with rfl | rfl
          · exact hs
          · exact ht
        refine ⟨hXQ, ?_⟩
        rintro (⟨-, h2⟩ | rfl | rfl)
        · exact h2 hX
        · exact notOld.1 hXQ
        · exact notOld.2 hXQ
    · ext X
      simp only [Finset.mem_sdiff, Finset.mem_union, Finset.mem_insert, Finset.mem_singleton]
      constructor
      · rintro ⟨⟨h1, -⟩ | h1, h2⟩
        · exact absurd h1 h2
        · exact h1
      · intro hX
        refine ⟨.inr hX, ?_⟩
        rcases hX with rfl | rfl
        · exact notOld.1
        · exact notOld.2
  · rintro ⟨h1, h2⟩
    rw [← h1, ← h2]
    ext X
    simp only [Finset.mem_sdiff, Finset.mem_union]
    tauto

/-- two partitions that differ in two parts each -/
theorem two_parts (h : IsPartition nodes Q) (h' : IsPartition nodes Q') {s t A B : Finset V} (h1 : Q \ Q' = {s, t}) (h2 : Q' \ Q = {A, B})
    (hAB : A ≠ B) : A ∪ B = s ∪ t ∧ Disjoint A B ∧ A.Nonempty ∧ B.Nonempty ∧ (s ≠ t → 3 ≤ (s ∪ t).card) := by
  have hA : A ∈ Q' \ Q := by rw [h2]; simp
  have hB : B ∈ Q' \ Q := by rw [h2]; simp
  have hs : s ∈ Q \ Q' := by rw [h1]; simp
  have ht : t ∈ Q \ Q' := by rw [h1]; simp
  rw [Finset.mem_sdiff] at hA hB hs ht
  have hU : A ∪ B = s ∪ t := by
    have := partition_diff h h'
    rw [h1, h2] at this
    simpa using this.symm
  have hd : Disjoint A B := by
    rw [Finset.disjoint_left]
    intro x hx hx'
    exact hAB (h'.disj A hA.1 B hB.1 x hx hx')
  refine ⟨hU, hd, h'.nonempty A hA.1, h'.nonempty B hB.1, fun hst => ?_⟩
  have hdst : Disjoint s t := by
    rw [Finset.disjoint_left]
    intro x hx hx'
    exact hst (h.disj s hs.1 t ht.1 x hx hx')
  by_contra hlt
  have c1 : (A ∪ B).card = A.card + B.card := Finset.card_union_of_disjoint hd
  have c2 : (s ∪ t).card = s.card + t.card := Finset.card_union_of_disjoint hdst
  have k1 := Finset.card_pos.2 (h'.nonempty A hA.1)
  have k2 := Finset.card_pos.2 (h'.nonempty B hB.1)
  have k3 := Finset.card_pos.2 (h.nonempty s hs.1)
  have k4 := Finset.card_pos.2 (h.nonempty t ht.1)
  rw [hU] at c1
  have a1 : A.card = 1 := by omega
  have a3 : s.card = 1 := by omega
  have a4 : t.card = 1 := by omega
  obtain ⟨z, rfl⟩ := Finset.card_eq_one.1 a1
  obtain ⟨x, rfl⟩ := Finset.card_eq_one.1 a3
  obtain ⟨y, rfl⟩ := Finset.card_eq_one.1 a4
  have hz : z ∈ ({x} ∪ {y} : Finset V) := by rw [← hU]; simp
  simp only [Finset.mem_union, Finset.mem_singleton] at hz
  rcases hz with rfl | rfl
  · exact hA.2 hs.1
  · exact hA.2 ht.1

end partition

/-! ### Flipping to the two sides of a cut -/

/-- the plan after assigning `S` to `p` and the rest of the two districts to `q` -/
theorem plan_cutFlips {a b : Assignment V P} (ha : a.Coherent) {p q : P} (hpq : p ≠ q) {s t S : Finset V}
    (hs : a.parts.get? p = some s) (ht : a.parts.get? q = some t) (hse : s.Nonempty) (hte : t.Nonempty) (hS : S ⊆ s ∪ t)
    (hb : a.flip (cutFlips p q (s ∪ t) S) = .ok b) : b.plan = (a.plan \ {s, t}) ∪ {S, (s ∪ t) \ S} := by
  have hspec := flip_ok ha (cutFlips_wf p q (s ∪ t) S) hb
  have hget : ∀ v, b.mapping.get? v = if v ∈ S then some p else if v ∈ (s ∪ t) \ S then some q else a.mapping.get? v := by
    intro v
    rw [hspec.get?, get?_cutFlips]
    by_cases h1 : v ∈ S
    · rw [if_pos h1, if_neg (by simp [h1]), if_pos h1]; rfl
    · by_cases h2 : v ∈ (s ∪ t) \ S
      · rw [if_pos h2, if_neg h1, if_pos h2]; rfl
      · rw [if_neg h2, if_neg h1, if_neg h1, if_neg h2]; rfl
  have hkeys : ∀ x, x ∈ b.parts.keys ↔ x ∈ a.parts.keys := fun x => by rw [hspec.keys]
  have memS : ∀ v, v ∈ s ↔ a.mapping.get? v = some p := ha.agree p s hs
  have memT : ∀ v, v ∈ t ↔ a.mapping.get? v = some q := ha.agree q t ht
  have bp : b.parts.get? p = some S := by
    obtain ⟨X, hX⟩ := Dict.mem_keys_iff.1 ((hkeys p).2 (Dict.mem_keys_iff.2 ⟨s, hs⟩))
    rw [hX]
    congr 1
    ext v
    rw [hspec.coherent.agree p X hX, hget]
    by_cases h1 : v ∈ S
    · simp [h1]
    · rw [if_neg h1]
      by_cases h2 : v ∈ (s ∪ t) \ S
      · rw [if_pos h2]; simp [h1, hpq.symm]
      · rw [if_neg h2, ← memS]
        simp only [Finset.mem_sdiff, Finset.mem_union] at h2
        tauto
  have bq : b.parts.get? q = some ((s ∪ t) \ S) := by
    obtain ⟨X, hX⟩ := Dict.mem_keys_iff.1 ((hkeys q).2 (Dict.mem_keys_iff.2 ⟨t, ht⟩))
    rw [hX]
    congr 1
    ext v
    rw [hspec.coherent.agree q X hX, hget]
    by_cases h1 : v ∈ S
    · rw [if_pos h1]; simp [h1, hpq]
    · rw [if_neg h1]
      by_cases h2 : v ∈ (s ∪ t) \ S
      · rw [if_pos h2]; simp only [h2]
      · rw [if_neg h2, ← memT]
        simp only [h2, iff_false]
        simp only [Finset.mem_sdiff, Finset.mem_union] at h2
        tauto
  have bo : ∀ x, x ≠ p → x ≠ q → b.parts.get? x = a.parts.get? x := by
    intro x hxp hxq
    rcases hX : a.parts.get? x with _ | X
    · rw [Dict.get?_eq_none_iff] at hX ⊢
      rwa [hkeys]
    · obtain ⟨Y, hY⟩ := Dict.mem_keys_iff.1 ((hkeys x).2 (Dict.mem_keys_iff.2 ⟨X, hX⟩))
      rw [hY]
      congr 1
      ext v
      rw [hspec.coherent.agree x Y hY, ha.agree x X hX, hget]
      by_cases h1 : v ∈ S
      · rw [if_pos h1]
        have := hS h1
        rw [Finset.mem_union, memS, memT] at this
        constructor
        · intro h; exact absurd (Option.some.inj h).symm hxp
        · intro h
          rw [h] at this
          rcases this with h' | h'
          · exact absurd (Option.some.inj h') hxp
          · exact absurd (Option.some.inj h') hxq
      · rw [if_neg h1]
        by_cases h2 : v ∈ (s ∪ t) \ S
        · rw [if_pos h2]
          have := (Finset.mem_sdiff.1 h2).1
          rw [Finset.mem_union, memS, memT] at this
          constructor
          · intro h; exact absurd (Option.some.inj h).symm hxq
          · intro h
            rw [h] at this
            rcases this with h' | h'
            · exact absurd (Option.some.inj h') hxp
            · exact absurd (Option.some.inj h') hxq
        · rw [if_neg h2]
  ext X
  rw [mem_plan hspec.coherent, Finset.mem_union, Finset.mem_sdiff, mem_plan ha, Finset.mem_insert, Finset.mem_singleton, Finset.mem_insert,
    Finset.mem_singleton]
  constructor
  · rintro ⟨x, hx⟩
    by_cases hxp : x = p
    · subst hxp
      rw [bp] at hx
      exact .inr (.inl (Option.some.inj hx).symm)
    by_cases hxq : x = q
    · subst hxq
      rw [bq] at hx
      exact .inr (.inr (Option.some.inj hx).symm)
    left
    rw [bo x hxp hxq] at hx
    refine ⟨⟨x, hx⟩, ?_⟩
    rintro (rfl | rfl)
    · obtain ⟨v, hv⟩ := hse
      have e := (ha.agree x X hx v).1 hv
      rw [(memS v).1 hv] at e
      exact hxp (Option.some.inj e).symm
    · obtain ⟨v, hv⟩ := hte
      have e := (ha.agree x X hx v).1 hv
      rw [(memT v).1 hv] at e
      exact hxq (Option.some.inj e).symm
  · rintro (⟨⟨x, hx⟩, hX⟩ | rfl | rfl)
    · refine ⟨x, ?_⟩
      rw [bo x ?_ ?_, hx]
      · rintro rfl
        rw [hs] at hx
        exact hX (.inl (Option.some.inj hx).symm)
      · rintro rfl
        rw [ht] at hx
        exact hX (.inr (Option.some.inj hx).symm)
    · exact ⟨p, bp⟩
    · exact ⟨q, bq⟩

/-- flipping to the two sides of a cut does not raise -/
theorem cutFlips_total {G : Graph V} {a : Assignment V P} (ha : a.Coherent) {p q : P} {s t S : Finset V}
    (hs : a.parts.get? p = some s) (ht : a.parts.get? q = some t) (hS : S ⊆ s ∪ t) :
    ∃ b, a.flip (cutFlips p q (s ∪ t) S) = .ok b := by
  rcases hr : a.flip (cutFlips p q (s ∪ t) S) with e | b
  · exfalso
    obtain ⟨-, hbad⟩ := (C03_flip_raises_iff a ha _ (cutFlips_wf p q (s ∪ t) S) e).1 hr
    have hget := get?_cutFlips p q (s ∪ t) S
    rcases hbad with ⟨v, hv, hv'⟩ | ⟨x, hx, hx'⟩
    · obtain ⟨y, hy⟩ := Dict.mem_keys_iff.1 hv
      rw [hget] at hy
      apply hv'
      have hvU : v ∈ s ∪ t := by
        split_ifs at hy with i1 i2
        · exact (Finset.mem_sdiff.1 i1).1
        · exact hS i2
      rw [Finset.mem_union, ha.agree p s hs, ha.agree q t ht] at hvU
      rw [Dict.mem_keys_iff]
      rcases hvU with h | h <;> exact ⟨_, h⟩
    · apply hx'
      unfold Dict.values at hx
      obtain ⟨⟨v, y⟩, hy, rfl⟩ := List.mem_map.1 hx
      have hg := (Dict.mem_entries_iff (cutFlips_wf p q (s ∪ t) S)).1 hy
      rw [hget] at hg
      split_ifs at hg
      · cases hg; exact Dict.mem_keys_iff.2 ⟨_, ht⟩
      · cases hg; exact Dict.mem_keys_iff.2 ⟨_, hs⟩
  · exact ⟨b, rfl⟩

/-- the seam of the new plan -/
theorem seam_cutFlips {G : Graph V} {a b : Assignment V P} (ha : a.Coherent) {p q : P} (hpq : p ≠ q) {s t S : Finset V}
    (hs : a.parts.get? p = some s) (ht : a.parts.get? q = some t) (hS : S ⊆ s ∪ t) (hb : a.flip (cutFlips p q (s ∪ t) S) = .ok b) :
    distPairEdges G b.mapping p q = seamOf G S ((s ∪ t) \ S) := by
  have hspec := flip_ok ha (cutFlips_wf p q (s ∪ t) S) hb
  have memS : ∀ v, v ∈ s ↔ a.mapping.get? v = some p := ha.agree p s hs
  have memT : ∀ v, v ∈ t ↔ a.mapping.get? v = some q := ha.agree q t ht
  have hp : ∀ v, b.mapping.get? v = some p ↔ v ∈ S := by
    intro v
    rw [hspec.get?, get?_cutFlips]
    by_cases h1 : v ∈ S
    · simp [h1]
    · by_cases h2 : v ∈ (s ∪ t) \ S
      · rw [if_pos h2]; simp [h1, hpq.symm]
      · rw [if_neg h2, if_neg h1]
        show a.mapping.get? v = some p ↔ _
        rw [← memS]
        simp only [Finset.mem_sdiff, Finset.mem_union] at h2
        tauto
  have hq : ∀ v, b.mapping.get? v = some q ↔ v ∈ (s ∪ t) \ S := by
    intro v
    rw [hspec.get?, get?_cutFlips]
    by_cases h2 : v ∈ (s ∪ t) \ S
    · simp only [if_pos h2, h2, iff_true]; rfl
    · rw [if_neg h2]
      by_cases h1 : v ∈ S
      · rw [if_pos h1]
        simp only [h2, iff_false]
        intro h
        exact hpq (Option.some.inj h)
      · rw [if_neg h1]
        show a.mapping.get? v = some q ↔ _
        rw [← memT]
        simp only [h2, iff_false]
        simp only [Finset.mem_sdiff, Finset.mem_union] at h2
        tauto
  ext e
  rw [mem_distPairEdges, mem_seamOf, hp, hp, hq, hq]

/-! ### The cuts of a tree that lead to given districts -/

/-- Among the cuts of a tree exactly one leads to the districts `A` and `B` if the tree has exactly one edge between them, and none otherwise. -/
theorem count_cuts {G : Graph V} (hG : G.WF) {A B : Finset V} (hAB : Disjoint A B) (hA : A ⊆ G.nodes) (hB : B ⊆ G.nodes) (hA0 : A.Nonempty)
    (hB0 : B.Nonempty) {pop : V → ℚ} {target eps : ℚ} (nA : Near target eps (popOf pop A)) (nB : Near target eps (popOf pop B))
    {E : Finset (V × V)} (hE : E ∈ treeSets (G.subgraph (A ∪ B))) {cuts : List (Cut V)} (hnd : (cuts.map (fun c => sortPair c.edge)).Nodup)
    (hc : ∀ c ∈ cuts, BalancedEdge ⟨A ∪ B, E⟩ pop target eps c.edge.1 c.edge.2 ∧ IsSide ⟨A ∪ B, E⟩ c.edge.2 c.edge.1 c.subset)
    (hall : ∀ u v, BalancedEdge ⟨A ∪ B, E⟩ pop target eps u v → ∃ c ∈ cuts, c.edge = (u, v) ∨ c.edge = (v, u)) :
    (cuts.filter (fun c => c.subset = A ∨ c.subset = B)).length = if (E ∩ seamOf G A B).card = 1 then 1 else 0 := by
  obtain ⟨hs, ht⟩ := (mem_treeSets (Finset.union_subset hA hB)).1 hE
  -- a cut that matches crosses the only edge
  have hcross : ∀ c ∈ cuts, c.subset = A ∨ c.subset = B → ∃ e, E ∩ seamOf G A B = {e} ∧ sortPair c.edge = sortPair e := by
    intro c hcm hm
    obtain ⟨hbal, hside⟩ := hc c hcm
    have hadj : Graph.Adj (⟨A ∪ B, E⟩ : Graph V) c.edge.2 c.edge.1 := hbal.1.symm
    obtain ⟨X, hX, hX'⟩ := side_compl ht hadj
    have hXe := hX.unique hside
    have hother : c.edge.1 ∉ c.subset := by
      have hm := ht.wf.mem_of_adj hadj
      have := (hX' c.edge.1).2 ⟨hm.2, Relation.ReflTransGen.refl⟩
      rw [hXe] at this
      exact (Finset.mem_sdiff.1 this).2
    rcases hm with hm | hm
    · rw [hm] at hside hother
      obtain ⟨e, he, he'⟩ := seam_of_side hG hAB hA hB hE hadj hside hother
      refine ⟨e, he, ?_⟩
      rcases he' with rfl | rfl
      · rw [sortPair_comm]
      · rfl
    · rw [hm] at hside hother
      rw [Finset.union_comm] at hE hadj hside
      obtain ⟨e, he, he'⟩ := seam_of_side hG hAB.symm hB hA hE hadj hside hother
      refine ⟨e, by rw [seamOf_comm]; exact he, ?_⟩
      rcases he' with rfl | rfl
      · rw [sortPair_comm]
      · rfl
  split_ifs with h1
  · obtain ⟨e, he⟩ := Finset.card_eq_one.1 h1
    obtain ⟨-, -, x, hx, y, hy, -, huniq⟩ := seam_unique hG hAB (fun f hf => (hs f hf).1) he
    have s1 := side_of_seam hG hAB hA hB hA0 hE hx hy huniq
    have s2 : IsSide ⟨A ∪ B, E⟩ y x B := by
      have := side_of_seam hG hAB.symm hB hA hB0 (by rw [Finset.union_comm]; exact hE) hy hx
        (fun a ha b hb hab => (huniq b hb a ha (by rw [Finset.union_comm]; exact hab.symm)).symm)
      rw [Finset.union_comm] at this
      exact this
    have hxy : Graph.Adj (⟨A ∪ B, E⟩ : Graph V) x y := by
      obtain ⟨u, hu, v, hv, huv⟩ := exists_edge_between ht.conn hA0 hB0 hAB
      obtain ⟨rfl, rfl⟩ := huniq u hu v hv huv
      exact huv
    obtain ⟨c, hcm, hce⟩ := hall x y ⟨hxy, A, B, s1, s2, nA, nB⟩
    have hcs : c.subset = A ∨ c.subset = B := by
      have := (hc c hcm).2
      rcases hce with hce | hce <;> rw [hce] at this
      · exact .inr (this.unique s2)
      · exact .inl (this.unique s1)
    have hle : (cuts.filter (fun c => c.subset = A ∨ c.subset = B)).length ≤ 1 := by
      have hnd' : ((cuts.filter (fun c => c.subset = A ∨ c.subset = B)).map (fun c => sortPair c.edge)).Nodup :=
        hnd.sublist (List.filter_sublist.map _)
      have hsub : ∀ z ∈ (cuts.filter (fun c => c.subset = A ∨ c.subset = B)).map (fun c => sortPair c.edge), z = sortPair e := by
        intro z hz
        obtain ⟨c', hc', rfl⟩ := List.mem_map.1 hz
        rw [List.mem_filter, decide_eq_true_eq] at hc'
        obtain ⟨e', he', hse⟩ := hcross c' hc'.1 hc'.2
        rw [he] at he'
        rw [hse, Finset.singleton_injective he']
      have := List.toFinset_card_of_nodup hnd'
      rw [List.length_map] at this
      rw [← this]
      refine (Finset.card_le_card (t := {sortPair e}) ?_).trans (by simp)
      intro z hz
      rw [Finset.mem_singleton]
      exact hsub z (List.mem_toFinset.1 hz)
    have hpos : 0 < (cuts.filter (fun c => c.subset = A ∨ c.subset = B)).length :=
      List.length_pos_of_mem (List.mem_filter.2 ⟨hcm, decide_eq_true hcs⟩)
    omega
  · rw [List.length_eq_zero_iff, List.filter_eq_nil_iff]
    intro c hcm hm
    rw [decide_eq_true_eq] at hm
    obtain ⟨e, he, -⟩ := hcross c hcm hm
    exact h1 (by rw [he]; rfl)

open Classical in
/-- the number of balanced edges of a tree -/
noncomputable def balancedEdges (U : Finset V) (E : Finset (V × V)) (pop : V → ℚ) (target eps : ℚ) : Finset (V × V) :=
  E.filter (fun e => BalancedEdge ⟨U, E⟩ pop target eps e.1 e.2)

theorem length_cuts_le {U : Finset V} {E : Finset (V × V)} {pop : V → ℚ} {target eps : ℚ} {cuts : List (Cut V)}
    (hnd : (cuts.map (fun c => sortPair c.edge)).Nodup)
    (hc : ∀ c ∈ cuts, BalancedEdge ⟨U, E⟩ pop target eps c.edge.1 c.edge.2) : cuts.length ≤ (balancedEdges U E pop target eps).card := by
  classical
  have e1 := List.toFinset_card_of_nodup hnd
  rw [List.length_map] at e1
  rw [← e1]
  refine (Finset.card_le_card (t := (balancedEdges U E pop target eps).image sortPair) ?_).trans Finset.card_image_le
  intro z hz
  obtain ⟨c, hcm, rfl⟩ := List.mem_map.1 (List.mem_toFinset.1 hz)
  have hb := hc c hcm
  rw [Finset.mem_image]
  unfold balancedEdges
  rcases hb.1 with h | h
  · exact ⟨c.edge, Finset.mem_filter.2 ⟨h, hb⟩, rfl⟩
  · exact ⟨(c.edge.2, c.edge.1), Finset.mem_filter.2 ⟨h, hb.symm⟩, sortPair_comm _ _⟩

/-! ### The numbers drawn by the balance function -/

theorem calcPopsLoop_length (succ : Dict V (List V)) (pop : V → ℚ) (n : ℕ) : ∀ (stack : List V) (pops r : Dict V ℚ),
    calcPopsLoop succ pop n stack pops = .ok r → r.entries.length ≤ pops.entries.length + n := by
  have hset : ∀ (d : Dict V ℚ) (k : V) (x : ℚ), (d.set k x).entries.length ≤ d.entries.length + 1 := by
    intro d k x
    have h1 : (d.set k x).entries.length = (d.set k x).keys.length := by unfold Dict.keys; rw [List.length_map]
    have h2 : d.entries.length = d.keys.length := by unfold Dict.keys; rw [List.length_map]
    rw [h1, h2, Dict.keys_set]
    split <;> simp
  induction n with
  | zero => intro stack pops r h; cases h
  | succ n ih =>
    intro stack pops r h
    cases stack with
    | nil => cases h; omega
    | cons x stack =>
      unfold calcPopsLoop at h
      by_cases h1 : pops.contains x = true
      · rw [if_pos h1] at h
        have := ih _ _ _ h
        omega
      · rw [if_neg h1] at h
        rcases hx : succ.get? x with _ | children
        · rw [hx] at h
          have := ih _ _ _ h
          have := hset pops x (pop x)
          omega
        · rw [hx] at h
          simp only at h
          by_cases h2 : (children.all fun c => pops.contains c) = true
          · rw [if_pos h2] at h
            have := ih _ _ _ h
            have := hset pops x ((children.map (fun c => (pops.get? c).getD 0)).sum + pop x)
            omega
          · rw [if_neg h2] at h
            have := ih _ _ _ h
            omega

theorem draws_memoCut (N fuel : ℕ) (h : PopGraph V) (pred : Dict V V) (succ : Dict V (List V)) (inside : Bool) (node : V) :
    Draws 1 (memoCut (uniRand N) fuel h pred succ inside node) := by
  unfold memoCut
  exact (draws_lift 0 _).bind (j := 1) (fun p => (draws_random N).bind (j := 0) (fun wt => (draws_lift 0 _).bind (j := 0) (fun part => draws_pure 0 _)))

theorem draws_memoLoop (N fuel : ℕ) (h : PopGraph V) (pred : Dict V V) (succ : Dict V (List V)) (oneSided : Bool) (l : List (V × ℚ)) :
    ∀ cuts, Draws l.length (memoLoop (uniRand N) fuel h pred succ oneSided l cuts) := by
  induction l with
  | nil => intro cuts; exact draws_pure _ _
  | cons x l ih =>
    intro cuts
    obtain ⟨node, treePop⟩ := x
    have step : ∀ inside, Draws (l.length + 1) (do
        let c ← memoCut (uniRand N) fuel h pred succ inside node
        memoLoop (uniRand N) fuel h pred succ oneSided l (cuts ++ [c])) := by
      intro inside
      rw [Nat.add_comm]
      exact (draws_memoCut N fuel h pred succ inside node).bind (fun c => ih _)
    have skip : Draws (l.length + 1) (memoLoop (uniRand N) fuel h pred succ oneSided l cuts) := (ih cuts).mono (Nat.le_succ _)
    show Draws (l.length + 1) _
    unfold memoLoop
    split_ifs
    · exact step true
    · exact step false
    · exact skip
    · exact step false
    · exact skip

theorem draws_memoization (N fuel : ℕ) (h : PopGraph V) (oneSided : Bool) : Draws (1 + fuel) (cutsMemoization (uniRand N) fuel h oneSided) := by
  unfold cutsMemoization
  refine (draws_choice N _).bind (fun root => ?_)
  rcases hp : calcPops fuel (successors h.graph root) root h.population with e | pops
  · refine .done (.error e) (fun t => ?_)
    show M.bind (M.lift (calcPops fuel (successors h.graph root) root h.population)) _ t = _
    unfold M.bind M.lift
    rw [hp]
  · have hlen : pops.entries.length ≤ fuel := by
      unfold calcPops at hp
      rw [Py.bind_eq_ok] at hp
      obtain ⟨cs, -, hp⟩ := hp
      have := calcPopsLoop_length _ _ _ _ _ _ hp
      simpa [Dict.empty] using this
    have := (draws_memoLoop N fuel h (predecessors h.graph root) (successors h.graph root) oneSided pops.entries []).mono hlen
    have heq : (M.lift (calcPops fuel (successors h.graph root) root h.population) >>= fun pops =>
        memoLoop (uniRand N) fuel h (predecessors h.graph root) (successors h.graph root) oneSided pops.entries []) =
        memoLoop (uniRand N) fuel h (predecessors h.graph root) (successors h.graph root) oneSided pops.entries [] := by
      rw [hp]; rfl
    rw [← heq] at this
    exact this

end GC

import Verif.Lemmas.Bfs
import Mathlib.Algebra.BigOperators.Ring.Finset
import Mathlib.Tactic.Ring

/-!
# Subtrees of a rooted tree are the sides of its edges
-/

set_option linter.unusedSectionVars false
set_option autoImplicit false

namespace GC

variable {V : Type} [LinearOrder V]

section
variable (T : Graph V) (root : V) (par : V → V)

/-- `w` is `v` or a descendant of `v` -/
def Desc (v w : V) : Prop := Relation.ReflTransGen (fun a b => a ∈ T.nodes ∧ a ≠ root ∧ b = par a) w v

open Classical in
/-- the subtree hanging from `v` -/
noncomputable def sub (v : V) : Finset V := T.nodes.filter (fun w => Desc T root par v w)

end

section
variable {T : Graph V} {root : V} {par : V → V} {rank : V → ℕ}

theorem mem_sub {v w : V} : w ∈ sub T root par v ↔ w ∈ T.nodes ∧ Desc T root par v w := by
  simp [sub]

theorem sub_subset {v : V} : sub T root par v ⊆ T.nodes := fun _ h => (mem_sub.1 h).1

theorem self_mem_sub {v : V} (hv : v ∈ T.nodes) : v ∈ sub T root par v := mem_sub.2 ⟨hv, Relation.ReflTransGen.refl⟩

theorem Desc.rank_le (h : Rooted T root par rank) {v w : V} (hd : Desc T root par v w) : rank v ≤ rank w := by
  induction hd with
  | refl => exact le_rfl
  | tail _ hs ih =>
    obtain ⟨h1, h2, rfl⟩ := hs
    exact (h.rank_lt _ h1 h2).le.trans ih

/-- a descendant other than `v` itself is a descendant of a child of `v` -/
theorem Desc.cases {v w : V} (hd : Desc T root par v w) :
    w = v ∨ ∃ c ∈ kids T root par v, Desc T root par c w := by
  rcases Relation.ReflTransGen.cases_tail hd with h | ⟨c, h1, h2, h3, h4⟩
  · exact Or.inl h.symm
  · exact Or.inr ⟨c, Finset.mem_filter.2 ⟨h2, h3, h4.symm⟩, h1⟩

theorem Desc.kid {v c w : V} (hc : c ∈ kids T root par v) (hd : Desc T root par c w) : Desc T root par v w := by
  simp only [kids, Finset.mem_filter] at hc
  exact Relation.ReflTransGen.tail hd ⟨hc.1, hc.2.1, hc.2.2.symm⟩

/-- going up from a proper descendant -/
theorem Desc.up {v w : V} (hd : Desc T root par v w) (hne : w ≠ v) : w ≠ root ∧ w ∈ T.nodes ∧ Desc T root par v (par w) := by
  rcases Relation.ReflTransGen.cases_head hd with h | ⟨c, ⟨h1, h2, rfl⟩, h3⟩
  · exact absurd h hne
  · exact ⟨h2, h1, h3⟩

theorem Desc.down {v w : V} (hw : w ∈ T.nodes) (hr : w ≠ root) (hd : Desc T root par v (par w)) : Desc T root par v w :=
  Relation.ReflTransGen.head ⟨hw, hr, rfl⟩ hd

/-- two ancestors of the same node are comparable -/
theorem Desc.total {u v w : V} (hu : Desc T root par u w) (hv : Desc T root par v w) :
    Desc T root par u v ∨ Desc T root par v u := by
  induction hu with
  | refl => exact Or.inr hv
  | @tail b c hb hs ih =>
    obtain ⟨h1, h2, rfl⟩ := hs
    rcases ih with h | h
    · exact Or.inl (Relation.ReflTransGen.tail h ⟨h1, h2, rfl⟩)
    · rcases Relation.ReflTransGen.cases_head h with e | ⟨x, ⟨_, _, rfl⟩, h4⟩
      · subst e
        exact Or.inl (Relation.ReflTransGen.single ⟨h1, h2, rfl⟩)
      · exact Or.inr h4

theorem root_desc (h : Rooted T root par rank) : ∀ w ∈ T.nodes, Desc T root par root w := by
  have : ∀ n w, rank w < n → w ∈ T.nodes → Desc T root par root w := by
    intro n
    induction n with
    | zero => intro w h; omega
    | succ n ih =>
      intro w hn hw
      by_cases hr : w = root
      · subst hr; exact Relation.ReflTransGen.refl
      · exact Desc.down hw hr (ih _ (by have := h.rank_lt w hw hr; omega) (h.par_mem w hw hr))
  intro w hw
  exact this _ w (Nat.lt_succ_self _) hw

theorem sub_root (h : Rooted T root par rank) : sub T root par root = T.nodes := by
  ext w
  rw [mem_sub]
  exact ⟨And.left, fun hw => ⟨hw, root_desc h w hw⟩⟩

theorem kids_disjoint (h : Rooted T root par rank) {v c d : V} (hc : c ∈ kids T root par v) (hd : d ∈ kids T root par v)
    (hne : c ≠ d) : Disjoint (sub T root par c) (sub T root par d) := by
  rw [Finset.disjoint_left]
  intro w h1 h2
  have hc' := hc
  have hd' := hd
  simp only [kids, Finset.mem_filter] at hc hd
  have key : ∀ a b, a ∈ kids T root par v → b ∈ kids T root par v → a ≠ b → ¬ Desc T root par a b := by
    intro a b ha hb hab hh
    obtain ⟨_, _, h3⟩ := hh.up hab.symm
    simp only [kids, Finset.mem_filter] at ha hb
    rw [hb.2.2] at h3
    have := h3.rank_le h
    have := h.rank_lt a ha.1 ha.2.1
    rw [ha.2.2] at this
    omega
  rcases Desc.total (mem_sub.1 h1).2 (mem_sub.1 h2).2 with hh | hh
  · exact key _ _ hc' hd' hne hh
  · exact key _ _ hd' hc' hne.symm hh

theorem not_mem_kid_sub (h : Rooted T root par rank) {v c : V} (hc : c ∈ kids T root par v) : v ∉ sub T root par c := by
  intro hv
  have := (mem_sub.1 hv).2.rank_le h
  simp only [kids, Finset.mem_filter] at hc
  have h2 := h.rank_lt c hc.1 hc.2.1
  rw [hc.2.2] at h2
  omega

theorem sub_eq (h : Rooted T root par rank) {v : V} (hv : v ∈ T.nodes) :
    sub T root par v = insert v ((kids T root par v).biUnion (sub T root par)) := by
  ext w
  rw [mem_sub, Finset.mem_insert, Finset.mem_biUnion]
  constructor
  · rintro ⟨hw, hd⟩
    rcases hd.cases with rfl | ⟨c, hc, hd⟩
    · exact Or.inl rfl
    · exact Or.inr ⟨c, hc, mem_sub.2 ⟨hw, hd⟩⟩
  · rintro (rfl | ⟨c, hc, hw⟩)
    · exact ⟨hv, Relation.ReflTransGen.refl⟩
    · exact ⟨(mem_sub.1 hw).1, Desc.kid hc (mem_sub.1 hw).2⟩

theorem popOf_sub (h : Rooted T root par rank) (pop : V → ℚ) {v : V} (hv : v ∈ T.nodes) :
    popOf pop (sub T root par v) = pop v + ∑ c ∈ kids T root par v, popOf pop (sub T root par c) := by
  rw [sub_eq h hv]
  unfold popOf
  rw [Finset.sum_insert, Finset.sum_biUnion]
  · intro c hc d hd hne
    exact kids_disjoint h hc hd hne
  · intro hm
    obtain ⟨c, hc, hm⟩ := Finset.mem_biUnion.1 hm
    exact not_mem_kid_sub h hc hm

theorem card_sub (h : Rooted T root par rank) {v : V} (hv : v ∈ T.nodes) :
    (sub T root par v).card = 1 + ∑ c ∈ kids T root par v, (sub T root par c).card := by
  conv_lhs => rw [sub_eq h hv]
  rw [Finset.card_insert_of_notMem, Finset.card_biUnion]
  · omega
  · intro c hc d hd hne
    exact kids_disjoint h hc hd hne
  · intro hm
    obtain ⟨c, hc, hm⟩ := Finset.mem_biUnion.1 hm
    exact not_mem_kid_sub h hc hm

theorem degree_eq (h : Rooted T root par rank) {v : V} (hv : v ∈ T.nodes) :
    T.degree v = (kids T root par v).card + (if v = root then 0 else 1) := by
  unfold Graph.degree
  by_cases hr : v = root
  · subst hr
    have : T.neighbors v = kids T v par v := by
      ext c
      rw [Graph.mem_neighbors h.wf, kids, Finset.mem_filter]
      constructor
      · intro ha
        rcases h.edge _ _ ha with h1 | h1
        · exact absurd rfl h1.1
        · exact ⟨(h.wf.mem_of_adj ha).2, h1.1, h1.2.symm⟩
      · rintro ⟨h1, h2, rfl⟩
        exact (h.adj c h1 h2).symm
    simp [this]
  · have : T.neighbors v = insert (par v) (kids T root par v) := by
      ext c
      rw [Graph.mem_neighbors h.wf, Finset.mem_insert, kids, Finset.mem_filter]
      constructor
      · intro ha
        rcases h.edge _ _ ha with h1 | h1
        · exact Or.inl h1.2
        · exact Or.inr ⟨(h.wf.mem_of_adj ha).2, h1.1, h1.2.symm⟩
      · rintro (rfl | ⟨h1, h2, rfl⟩)
        · exact h.adj v hv hr
        · exact (h.adj c h1 h2).symm
    rw [this, Finset.card_insert_of_notMem, if_neg hr]
    intro hm
    simp only [kids, Finset.mem_filter] at hm
    have h1 := h.rank_lt _ hm.1 hm.2.1
    rw [hm.2.2] at h1
    have h2 := h.rank_lt v hv hr
    omega

/-- the subtree of `v` is the side of `v` of the edge to its parent -/
theorem isSide_sub (h : Rooted T root par rank) {v : V} (hv : v ∈ T.nodes) (hr : v ≠ root) :
    IsSide T v (par v) (sub T root par v) := by
  intro w
  rw [mem_sub]
  constructor
  · rintro ⟨hw, hd⟩
    refine ⟨hw, ReachIn.symm ?_⟩
    have : ∀ n w, rank w < n → w ∈ T.nodes → Desc T root par v w → ReachIn (T.cut v (par v)) T.nodes w v := by
      intro n
      induction n with
      | zero => intro w h; omega
      | succ n ih =>
        intro w hn hw hd
        by_cases hwv : w = v
        · subst hwv; exact Relation.ReflTransGen.refl
        · obtain ⟨h1, h2, h3⟩ := hd.up hwv
          have hlt := h.rank_lt w hw h1
          have hpm := h.par_mem w hw h1
          refine Relation.ReflTransGen.head ⟨?_, hw, hpm⟩ (ih (par w) (by omega) hpm h3)
          rw [Graph.cut_adj]
          refine ⟨h.adj w hw h1, fun hh => hwv hh.1, fun hh => ?_⟩
          have h4 := hd.rank_le h
          have h5 := h.rank_lt v hv hr
          rw [← hh.1] at h5
          omega
    exact this _ w (Nat.lt_succ_self _) hw hd
  · rintro ⟨hw, hd⟩
    refine ⟨hw, closed_of_reach hd Relation.ReflTransGen.refl ?_⟩
    intro x y hx hxy
    have ha := hxy.1
    rw [Graph.cut_adj] at ha
    rcases h.edge _ _ ha.1 with ⟨h1, rfl⟩ | ⟨h1, rfl⟩
    · by_cases hxv : x = v
      · subst hxv
        exact absurd ⟨rfl, rfl⟩ ha.2.1
      · exact (hx.up hxv).2.2
    · exact Desc.down hxy.2.2 h1 hx

/-- the rest of the tree is the side of the parent -/
theorem isSide_compl (h : Rooted T root par rank) {v : V} (hv : v ∈ T.nodes) (hr : v ≠ root) :
    IsSide T (par v) v (T.nodes \ sub T root par v) := by
  intro w
  rw [Finset.mem_sdiff, mem_sub]
  have hpv : ¬ Desc T root par v (par v) := by
    intro hd
    have := hd.rank_le h
    have := h.rank_lt v hv hr
    omega
  constructor
  · rintro ⟨hw, hd⟩
    have hd : ¬ Desc T root par v w := fun h' => hd ⟨hw, h'⟩
    refine ⟨hw, ?_⟩
    have key : ∀ n w, rank w < n → w ∈ T.nodes → ¬ Desc T root par v w →
        ReachIn (T.cut (par v) v) T.nodes w root := by
      intro n
      induction n with
      | zero => intro w h; omega
      | succ n ih =>
        intro w hn hw hd
        by_cases hwr : w = root
        · subst hwr; exact Relation.ReflTransGen.refl
        · have hlt := h.rank_lt w hw hwr
          have hpm := h.par_mem w hw hwr
          have hnd : ¬ Desc T root par v (par w) := fun hh => hd (Desc.down hw hwr hh)
          have hwv : w ≠ v := by rintro rfl; exact hd Relation.ReflTransGen.refl
          have hpwv : par w ≠ v := by intro e; rw [e] at hnd; exact hnd Relation.ReflTransGen.refl
          refine Relation.ReflTransGen.head ⟨?_, hw, hpm⟩ (ih (par w) (by omega) hpm hnd)
          rw [Graph.cut_adj]
          exact ⟨h.adj w hw hwr, fun hh => hpwv hh.2, fun hh => hwv hh.1⟩
    exact (key _ (par v) (Nat.lt_succ_self _) (h.par_mem v hv hr) hpv).trans
      (key _ w (Nat.lt_succ_self _) hw hd).symm
  · rintro ⟨hw, hd⟩
    refine ⟨hw, fun hh => ?_⟩
    have : ¬ Desc T root par v w := by
      refine closed_of_reach (C := fun w => ¬ Desc T root par v w) hd hpv ?_
      intro x y hx hxy hy
      have ha := hxy.1
      rw [Graph.cut_adj] at ha
      rcases h.edge _ _ ha.1 with ⟨h1, rfl⟩ | ⟨h1, rfl⟩
      · exact hx (Desc.down hxy.2.1 h1 hy)
      · by_cases hyv : y = v
        · subst hyv
          exact ha.2.1 ⟨rfl, rfl⟩
        · exact hx (hy.up hyv).2.2
    exact this hh.2

theorem popOf_compl (pop : V → ℚ) (v : V) :
    popOf pop (T.nodes \ sub T root par v) = popOf pop T.nodes - popOf pop (sub T root par v) := by
  unfold popOf
  rw [← Finset.sum_sdiff (sub_subset (T := T) (root := root) (par := par) (v := v))]
  ring

end

end GC

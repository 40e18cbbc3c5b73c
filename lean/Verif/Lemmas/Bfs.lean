import Verif.Model.Tree
import Mathlib.Data.Finset.Card
import Mathlib.Tactic.Linarith

/-!
# Breadth-first search produces a rooted tree
-/

set_option linter.unusedSectionVars false
set_option autoImplicit false

namespace GC

variable {V : Type} [LinearOrder V]

/-- parent-child pairs of the search -/
def groupPairs (gs : List (V × List V)) : List (V × V) := gs.flatMap (fun g => g.2.map (fun c => (c, g.1)))

theorem mem_groupPairs {gs : List (V × List V)} {c p : V} :
    (c, p) ∈ groupPairs gs ↔ ∃ cs, (p, cs) ∈ gs ∧ c ∈ cs := by
  simp only [groupPairs, List.mem_flatMap, List.mem_map, Prod.mk.injEq, Prod.exists]
  constructor
  · rintro ⟨a, cs, h, x, hx, rfl, rfl⟩; exact ⟨cs, h, hx⟩
  · rintro ⟨cs, h, hc⟩; exact ⟨p, cs, h, c, hc, rfl, rfl⟩

/-- the discovered nodes, in order -/
def groupKids (gs : List (V × List V)) : List V := gs.flatMap (·.2)

theorem map_fst_groupPairs (gs : List (V × List V)) : (groupPairs gs).map (·.1) = groupKids gs := by
  induction gs with
  | nil => rfl
  | cons g gs ih =>
    simp only [groupPairs, groupKids, List.flatMap_cons, List.map_append] at ih ⊢
    rw [ih]
    congr 1
    simp [List.map_map, Function.comp_def]

/-- what one search guarantees -/
structure BfsSpec (T : Graph V) (seen : Finset V) (queue : List V) (gs : List (V × List V)) : Prop where
  kids_nodup : (groupKids gs).Nodup
  kids_fresh : ∀ c ∈ groupKids gs, c ∉ seen
  kids_nodes : ∀ c ∈ groupKids gs, c ∈ T.nodes
  adj : ∀ p cs, (p, cs) ∈ gs → ∀ c ∈ cs, T.Adj p c
  parents : gs.map (·.1) = queue ++ groupKids gs
  closed : ∀ x, x ∈ queue ∨ x ∈ groupKids gs → ∀ y ∈ T.neighbors x, y ∈ seen ∨ y ∈ groupKids gs
  rank : ∀ k : ℕ, ∃ r : V → ℕ, (∀ v ∈ seen, r v ≤ k) ∧ (∀ c ∈ groupKids gs, k < r c) ∧
    ∀ p cs, (p, cs) ∈ gs → ∀ c ∈ cs, r p < r c

theorem bfsGroups_spec (T : Graph V) : ∀ (n : ℕ) (seen : Finset V) (queue : List V),
    (∀ x ∈ queue, x ∈ seen) → queue.length + (T.nodes \ seen).card ≤ n →
    BfsSpec T seen queue (bfsGroups T n seen queue) := by
  intro n
  induction n with
  | zero =>
    intro seen queue _ hn
    have : queue = [] := by
      rcases queue with _ | ⟨a, l⟩
      · rfl
      · simp at hn
    subst this
    constructor <;> simp [bfsGroups, groupKids]
    intro k
    exact ⟨fun _ => k, by simp⟩
  | succ n ih =>
    intro seen queue hq hn
    rcases queue with _ | ⟨p, q⟩
    · constructor <;> simp [bfsGroups, groupKids]
      intro k
      exact ⟨fun _ => k, by simp⟩
    · set cs := (iter (T.neighbors p)).filter (fun c => c ∉ seen) with hcs
      have hmem : ∀ c, c ∈ cs ↔ c ∈ T.neighbors p ∧ c ∉ seen := by
        intro c; simp [hcs]
      have hnb : ∀ c, c ∈ T.neighbors p ↔ c ∈ T.nodes ∧ T.Adj p c := by
        intro c; simp [Graph.neighbors]
      have hcnd : cs.Nodup := (nodup_iter _).filter _
      have hq' : ∀ x ∈ q ++ cs, x ∈ seen ∪ cs.toFinset := by
        intro x hx
        rcases List.mem_append.1 hx with hx | hx
        · exact Finset.mem_union_left _ (hq x (List.mem_cons_of_mem _ hx))
        · exact Finset.mem_union_right _ (List.mem_toFinset.2 hx)
      have hcard : (q ++ cs).length + (T.nodes \ (seen ∪ cs.toFinset)).card ≤ n := by
        have e1 : T.nodes \ (seen ∪ cs.toFinset) = (T.nodes \ seen) \ cs.toFinset := by
          ext x; simp only [Finset.mem_sdiff, Finset.mem_union]; tauto
        have e2 : cs.toFinset ⊆ T.nodes \ seen := by
          intro x hx
          rw [List.mem_toFinset, hmem, hnb] at hx
          exact Finset.mem_sdiff.2 ⟨hx.1.1, hx.2⟩
        have e3 := Finset.card_sdiff_add_card_eq_card e2
        rw [List.toFinset_card_of_nodup hcnd] at e3
        rw [e1, List.length_append]
        simp only [List.length_cons] at hn
        omega
      have h := ih _ _ hq' hcard
      have hgs : bfsGroups T (n + 1) seen (p :: q) =
          (p, cs) :: bfsGroups T n (seen ∪ cs.toFinset) (q ++ cs) := rfl
      rw [hgs]
      set gs := bfsGroups T n (seen ∪ cs.toFinset) (q ++ cs) with hgsdef
      have hkids : groupKids ((p, cs) :: gs) = cs ++ groupKids gs := rfl
      have hfresh : ∀ c ∈ groupKids gs, c ∉ seen ∧ c ∉ cs := by
        intro c hc
        have := h.kids_fresh c hc
        simp only [Finset.mem_union, List.mem_toFinset, not_or] at this
        exact this
      constructor
      · rw [hkids, List.nodup_append]
        refine ⟨hcnd, h.kids_nodup, ?_⟩
        intro a ha b hb hab
        subst hab
        exact (hfresh a hb).2 ha
      · intro c hc
        rw [hkids, List.mem_append] at hc
        rcases hc with hc | hc
        · exact ((hmem c).1 hc).2
        · exact (hfresh c hc).1
      · intro c hc
        rw [hkids, List.mem_append] at hc
        rcases hc with hc | hc
        · exact ((hnb c).1 ((hmem c).1 hc).1).1
        · exact h.kids_nodes c hc
      · intro p' cs' hm c hc
        rcases List.mem_cons.1 hm with hm | hm
        · cases hm
          exact ((hnb c).1 ((hmem c).1 hc).1).2
        · exact h.adj _ _ hm _ hc
      · rw [hkids, List.map_cons, h.parents]
        simp
      · intro x hx y hy
        rw [hkids, List.mem_append]
        have key : x = p ∨ x ∈ q ++ cs ∨ x ∈ groupKids gs := by
          rw [hkids] at hx
          simp only [List.mem_cons, List.mem_append] at hx ⊢
          tauto
        rcases key with rfl | hx'
        · by_cases hs : y ∈ seen
          · exact Or.inl hs
          · exact Or.inr (Or.inl ((hmem y).2 ⟨hy, hs⟩))
        · have := h.closed x hx' y hy
          simp only [Finset.mem_union, List.mem_toFinset] at this
          tauto
      · intro k
        obtain ⟨r, h1, h2, h3⟩ := h.rank (k + 1)
        refine ⟨fun v => if v ∈ seen then k else if v ∈ cs then k + 1 else r v, ?_, ?_, ?_⟩
        · intro v hv
          simp [hv]
        · intro c hc
          rw [hkids, List.mem_append] at hc
          rcases hc with hc | hc
          · simp only [((hmem c).1 hc).2, if_false, hc, if_true]
            omega
          · simp only [(hfresh c hc).1, if_false, (hfresh c hc).2]
            have := h2 c hc
            omega
        · intro p' cs' hm c hc
          rcases List.mem_cons.1 hm with hm | hm
          · cases hm
            simp only [hq p (List.mem_cons_self ..), if_true, ((hmem c).1 hc).2, if_false, hc]
            omega
          · have hck : c ∈ groupKids gs := List.mem_flatMap.2 ⟨_, hm, hc⟩
            simp only [(hfresh c hck).1, if_false, (hfresh c hck).2]
            have hpp : p' ∈ (q ++ cs) ++ groupKids gs := by
              rw [← h.parents]; exact List.mem_map.2 ⟨_, hm, rfl⟩
            have hc2 := h2 c hck
            rcases List.mem_append.1 hpp with hpp | hpp
            · have := hq' p' hpp
              split
              · omega
              · split <;> [omega; (have := h1 p' ‹_›; omega)]
            · simp only [(hfresh p' hpp).1, if_false, (hfresh p' hpp).2]
              exact h3 _ _ hm _ hc

/-- Folding `d[k] = v` over pairs with distinct new keys just lists them. -/
theorem foldl_set_eq {K W : Type} [DecidableEq K] (l : List (K × W)) : ∀ (d : Dict K W),
    (l.map (·.1)).Nodup → (∀ e ∈ l, e.1 ∉ d.keys) →
    l.foldl (fun d e => d.set e.1 e.2) d = ⟨d.entries ++ l⟩ := by
  induction l with
  | nil => intro d _ _; simp
  | cons e l ih =>
    intro d hn hd
    simp only [List.map_cons, List.nodup_cons] at hn
    have he : d.set e.1 e.2 = ⟨d.entries ++ [e]⟩ := by
      unfold Dict.set
      rw [if_neg]
      have := hd e (List.mem_cons_self ..)
      simpa [Dict.keys] using this
    rw [List.foldl_cons, he, ih _ hn.2]
    · simp
    · intro x hx
      have h1 := hd x (List.mem_cons_of_mem _ hx)
      simp only [Dict.keys, List.map_append, List.mem_append, List.map_cons, List.map_nil, List.mem_singleton] at h1 ⊢
      rintro (h | h)
      · exact h1 h
      · exact hn.1 (h ▸ List.mem_map.2 ⟨x, hx, rfl⟩)

/-- A tree with a root: every other node has a parent of smaller rank, and every edge joins a node and its parent. -/
structure Rooted (T : Graph V) (root : V) (par : V → V) (rank : V → ℕ) : Prop where
  wf : T.WF
  root_mem : root ∈ T.nodes
  par_mem : ∀ v ∈ T.nodes, v ≠ root → par v ∈ T.nodes
  rank_lt : ∀ v ∈ T.nodes, v ≠ root → rank (par v) < rank v
  adj : ∀ v ∈ T.nodes, v ≠ root → T.Adj v (par v)
  edge : ∀ u v, T.Adj u v → (u ≠ root ∧ v = par u) ∨ (v ≠ root ∧ u = par v)

/-- the children of a node -/
def kids (T : Graph V) (root : V) (par : V → V) (v : V) : Finset V := T.nodes.filter (fun c => c ≠ root ∧ par c = v)

theorem bfs_rooted {T : Graph V} (hT : IsTree T) {root : V} (hr : root ∈ T.nodes) :
    ∃ par rank, Rooted T root par rank ∧
      (∀ v ∈ T.nodes, v ≠ root → (predecessors T root).get? v = some (par v)) ∧
      (∃ cs, (successors T root).get? root = some cs ∧ cs.Nodup ∧ cs.toFinset = kids T root par root) ∧
      (∀ v ∈ T.nodes, v ≠ root → (kids T root par v).Nonempty →
        ∃ cs, (successors T root).get? v = some cs ∧ cs.Nodup ∧ cs.toFinset = kids T root par v) ∧
      (∀ v ∈ T.nodes, v ≠ root → kids T root par v = ∅ → (successors T root).get? v = none) := by
  classical
  have hcard : [root].length + (T.nodes \ {root}).card ≤ T.nodes.card := by
    have := Finset.card_sdiff_add_card_eq_card (Finset.singleton_subset_iff.2 hr)
    simp only [Finset.card_singleton, List.length_singleton] at this ⊢
    omega
  have h := bfsGroups_spec T T.nodes.card {root} [root] (by simp) hcard
  set gs := bfsGroups T T.nodes.card {root} [root] with hgs
  have hbf : bfsFrom T root = gs := rfl
  -- all nodes are found
  have hall : ∀ v ∈ T.nodes, v = root ∨ v ∈ groupKids gs := by
    intro v hv
    refine closed_of_reach (C := fun v => v = root ∨ v ∈ groupKids gs) (hT.conn.2 root hr v hv) (Or.inl rfl) ?_
    intro x y hx hxy
    have hy : y ∈ T.neighbors x := (Graph.mem_neighbors hT.wf).2 hxy.1
    have := h.closed x (by simpa using hx) y hy
    simpa using this
  have hpairs : (predecessors T root) = ⟨groupPairs gs⟩ := by
    unfold predecessors
    rw [hbf]
    show List.foldl _ _ (groupPairs gs) = _
    rw [foldl_set_eq]
    · simp
    · rw [map_fst_groupPairs]; exact h.kids_nodup
    · simp
  have hpnd : (Dict.mk (groupPairs gs)).WF := by
    show ((groupPairs gs).map (·.1)).Nodup
    rw [map_fst_groupPairs]; exact h.kids_nodup
  have hparnd : (gs.map (·.1)).Nodup := by
    rw [h.parents, List.nodup_append]
    refine ⟨List.nodup_singleton _, h.kids_nodup, ?_⟩
    intro a ha b hb hab
    subst hab
    have := h.kids_fresh a hb
    simp only [List.mem_singleton] at ha
    simp [ha] at this
  have hsucc : successors T root = ⟨gs.filter (fun g => g.1 = root ∨ g.2 ≠ [])⟩ := by
    unfold successors
    rw [hbf, foldl_set_eq]
    · simp
    · exact hparnd.sublist (List.filter_sublist.map _)
    · simp
  have hswf : (Dict.mk (gs.filter (fun g => g.1 = root ∨ g.2 ≠ []))).WF :=
    hparnd.sublist (List.filter_sublist.map _)
  -- the parent function
  let par : V → V := fun v => ((predecessors T root).get? v).getD root
  obtain ⟨r, _, _, hrk⟩ := h.rank 0
  have hpar : ∀ c p, (c, p) ∈ groupPairs gs ↔ (c ∈ groupKids gs ∧ par c = p) := by
    intro c p
    constructor
    · intro hm
      refine ⟨?_, ?_⟩
      · rw [← map_fst_groupPairs]; exact List.mem_map.2 ⟨_, hm, rfl⟩
      · show ((predecessors T root).get? c).getD root = p
        rw [hpairs, Dict.get?_of_mem_entries hpnd hm]; rfl
    · rintro ⟨hc, hp⟩
      rw [← map_fst_groupPairs] at hc
      obtain ⟨⟨c', p'⟩, hm, rfl⟩ := List.mem_map.1 hc
      have : par c' = p' := by
        show ((predecessors T root).get? c').getD root = p'
        rw [hpairs, Dict.get?_of_mem_entries hpnd hm]; rfl
      rw [this] at hp
      subst hp
      exact hm
  have hkid : ∀ v, v ∈ groupKids gs ↔ v ∈ T.nodes ∧ v ≠ root := by
    intro v
    constructor
    · intro hv
      refine ⟨h.kids_nodes v hv, ?_⟩
      have := h.kids_fresh v hv
      simpa using this
    · rintro ⟨hv, hne⟩
      exact (hall v hv).resolve_left hne
  have hgrp : ∀ v ∈ T.nodes, v ≠ root → ∃ cs, (par v, cs) ∈ gs ∧ v ∈ cs := by
    intro v hv hne
    exact mem_groupPairs.1 ((hpar v (par v)).2 ⟨(hkid v).2 ⟨hv, hne⟩, rfl⟩)
  have hpmem : ∀ v ∈ T.nodes, v ≠ root → par v ∈ T.nodes := by
    intro v hv hne
    obtain ⟨cs, h1, _⟩ := hgrp v hv hne
    have : par v ∈ gs.map (·.1) := List.mem_map.2 ⟨_, h1, rfl⟩
    rw [h.parents] at this
    rcases List.mem_append.1 this with h' | h'
    · rw [List.mem_singleton.1 h']; exact hr
    · exact h.kids_nodes _ h'
  have hplt : ∀ v ∈ T.nodes, v ≠ root → r (par v) < r v := by
    intro v hv hne
    obtain ⟨cs, h1, h2⟩ := hgrp v hv hne
    exact hrk _ _ h1 _ h2
  have hadj : ∀ v ∈ T.nodes, v ≠ root → T.Adj v (par v) := by
    intro v hv hne
    obtain ⟨cs, h1, h2⟩ := hgrp v hv hne
    exact (h.adj _ _ h1 _ h2).symm
  -- every edge joins a node and its parent
  have hedge : ∀ u v, T.Adj u v → (u ≠ root ∧ v = par u) ∨ (v ≠ root ∧ u = par v) := by
    let f : V → V × V := fun v => if (v, par v) ∈ T.edges then (v, par v) else (par v, v)
    have hf1 : ∀ v ∈ T.nodes.erase root, f v ∈ T.edges := by
      intro v hv
      rw [Finset.mem_erase] at hv
      show (if (v, par v) ∈ T.edges then (v, par v) else (par v, v)) ∈ T.edges
      split
      · assumption
      · exact (hadj v hv.2 hv.1).resolve_left ‹_›
    have hfv : ∀ v, f v = (v, par v) ∨ f v = (par v, v) := by
      intro v
      show (if (v, par v) ∈ T.edges then (v, par v) else (par v, v)) = _ ∨ _
      split <;> simp_all [f]
    have hinj : Set.InjOn f (T.nodes.erase root : Finset V) := by
      intro a ha b hb hab
      rw [Finset.mem_coe, Finset.mem_erase] at ha hb
      have la := hplt a ha.2 ha.1
      have lb := hplt b hb.2 hb.1
      rcases hfv a with ea | ea <;> rcases hfv b with eb | eb <;> rw [ea, eb] at hab <;>
        simp only [Prod.mk.injEq] at hab
      · exact hab.1
      · obtain ⟨h1, h2⟩ := hab
        rw [h2] at la
        rw [← h1] at lb
        omega
      · obtain ⟨h1, h2⟩ := hab
        rw [h1] at la
        rw [← h2] at lb
        omega
      · exact hab.2
    have himg : (T.nodes.erase root).image f = T.edges := by
      apply Finset.eq_of_subset_of_card_le
      · intro e he
        obtain ⟨v, hv, rfl⟩ := Finset.mem_image.1 he
        exact hf1 v hv
      · rw [Finset.card_image_of_injOn hinj, Finset.card_erase_of_mem hr]
        have := hT.card
        omega
    have hone : ∀ e ∈ T.edges, ∃ v ∈ T.nodes, v ≠ root ∧ (e = (v, par v) ∨ e = (par v, v)) := by
      intro e he
      rw [← himg] at he
      obtain ⟨v, hv, rfl⟩ := Finset.mem_image.1 he
      rw [Finset.mem_erase] at hv
      exact ⟨v, hv.2, hv.1, hfv v⟩
    intro u v huv
    rcases huv with he | he
    · obtain ⟨x, _, hx, e | e⟩ := hone _ he <;> cases e
      · exact Or.inl ⟨hx, rfl⟩
      · exact Or.inr ⟨hx, rfl⟩
    · obtain ⟨x, _, hx, e | e⟩ := hone _ he <;> cases e
      · exact Or.inr ⟨hx, rfl⟩
      · exact Or.inl ⟨hx, rfl⟩
  have hcs : ∀ v cs, (v, cs) ∈ gs → cs.Nodup ∧ cs.toFinset = kids T root par v := by
    intro v cs hm
    constructor
    · exact (List.nodup_flatMap.1 h.kids_nodup).1 _ hm
    · ext c
      simp only [List.mem_toFinset, kids, Finset.mem_filter]
      constructor
      · intro hc
        have h1 := (hpar c v).1 (mem_groupPairs.2 ⟨cs, hm, hc⟩)
        have h2 := (hkid c).1 h1.1
        exact ⟨h2.1, h2.2, h1.2⟩
      · rintro ⟨h1, h2, h3⟩
        obtain ⟨cs', h4, h5⟩ := hgrp c h1 h2
        rw [h3] at h4
        have e : cs = cs' := by
          have a1 := Dict.get?_of_mem_entries (d := ⟨gs⟩) hparnd hm
          have a2 := Dict.get?_of_mem_entries (d := ⟨gs⟩) hparnd h4
          rw [a1] at a2
          exact Option.some.inj a2
        rw [e]; exact h5
  have hin : ∀ v ∈ T.nodes, ∃ cs, (v, cs) ∈ gs := by
    intro v hv
    have : v ∈ gs.map (·.1) := by
      rw [h.parents]
      rcases hall v hv with h' | h'
      · simp [h']
      · exact List.mem_append_right _ h'
    obtain ⟨⟨a, cs⟩, h1, rfl⟩ := List.mem_map.1 this
    exact ⟨cs, h1⟩
  refine ⟨par, r, ⟨hT.wf, hr, hpmem, hplt, hadj, hedge⟩, ?_, ?_, ?_, ?_⟩
  · intro v hv hne
    rw [hpairs]
    exact Dict.get?_of_mem_entries hpnd ((hpar v (par v)).2 ⟨(hkid v).2 ⟨hv, hne⟩, rfl⟩)
  · obtain ⟨cs, h1⟩ := hin root hr
    refine ⟨cs, ?_, hcs _ _ h1⟩
    rw [hsucc]
    exact Dict.get?_of_mem_entries hswf (List.mem_filter.2 ⟨h1, by simp⟩)
  · intro v hv hne hk
    obtain ⟨cs, h1⟩ := hin v hv
    refine ⟨cs, ?_, hcs _ _ h1⟩
    rw [hsucc]
    refine Dict.get?_of_mem_entries hswf (List.mem_filter.2 ⟨h1, ?_⟩)
    have : cs ≠ [] := by
      rintro rfl
      have := (hcs _ _ h1).2
      rw [← this] at hk
      simp at hk
    simp [this]
  · intro v hv hne hk
    rw [hsucc, Dict.get?_eq_none_iff]
    intro hmem
    obtain ⟨⟨a, cs⟩, h1, h2⟩ := List.mem_map.1 hmem
    simp only at h2
    subst h2
    have h3 := List.mem_filter.1 h1
    have h4 := (hcs _ _ h3.1).2
    rw [hk] at h4
    have : cs = [] := by
      rw [List.toFinset_eq_empty_iff] at h4; exact h4
    subst this
    simp [hne] at h3

end GC

import Verif.Lemmas.Rooted
import Mathlib.Tactic.Push

/-!
# The two balanced-cut algorithms
-/

set_option linter.unusedSectionVars false
set_option autoImplicit false

namespace GC

variable {V : Type} [LinearOrder V] {S : Type}

theorem M.bind_ok {α β : Type} {m : M S α} {f : α → M S β} {s s' : S} {a : α} (h : m s = (.ok a, s')) :
    (m >>= f) s = f a s' := by
  show M.bind m f s = _
  unfold M.bind
  rw [h]

theorem M.bind_error {α β : Type} {m : M S α} {f : α → M S β} {s s' : S} {e : PyErr} (h : m s = (.error e, s')) :
    (m >>= f) s = (.error e, s') := by
  show M.bind m f s = _
  unfold M.bind
  rw [h]

theorem Dict.lift_get {K W : Type} [DecidableEq K] {d : Dict K W} {k : K} {v : W} (h : d.get? k = some v) (s : S) :
    (M.lift (d.get k) : M S W) s = (.ok v, s) := by
  unfold M.lift
  rw [Dict.get_eq_ok_iff.2 h]

section
variable {T : Graph V} {root : V} {par : V → V} {rank : V → ℕ}

/-- cuts reported for exactly the nodes of `D` that satisfy `bal`, each with the subset `side` -/
structure CutsFor (par : V → V) (D : Finset V) (bal : V → Prop) (side : V → Finset V) (cuts : List (Cut V)) : Prop where
  nodup : (cuts.map (fun c => c.edge.1)).Nodup
  sound : ∀ c ∈ cuts, c.edge.1 ∈ D ∧ bal c.edge.1 ∧ c.edge.2 = par c.edge.1 ∧ c.subset = side c.edge.1
  complete : ∀ x ∈ D, bal x → ∃ c ∈ cuts, c.edge.1 = x

theorem CutsFor.snoc {D : Finset V} {bal : V → Prop} {side : V → Finset V} {cuts : List (Cut V)}
    (h : CutsFor par D bal side cuts) {x : V} (hx : x ∉ D) (hb : bal x) {w : ℚ} :
    CutsFor par (insert x D) bal side (cuts ++ [⟨(x, par x), w, side x⟩]) := by
  constructor
  · rw [List.map_append, List.nodup_append]
    refine ⟨h.nodup, by simp, ?_⟩
    intro a ha b hb hab
    simp only [List.map_cons, List.map_nil, List.mem_singleton] at hb
    obtain ⟨c, hc, rfl⟩ := List.mem_map.1 ha
    have := (h.sound c hc).1
    rw [hab, hb] at this
    exact hx this
  · intro c hc
    rcases List.mem_append.1 hc with hc | hc
    · obtain ⟨h1, h2⟩ := h.sound c hc
      exact ⟨Finset.mem_insert_of_mem h1, h2⟩
    · rw [List.mem_singleton.1 hc]
      exact ⟨Finset.mem_insert_self .., hb, rfl, rfl⟩
  · intro y hy hby
    rcases Finset.mem_insert.1 hy with rfl | hy
    · exact ⟨_, List.mem_append_right _ (List.mem_singleton.2 rfl), rfl⟩
    · obtain ⟨c, hc, e⟩ := h.complete y hy hby
      exact ⟨c, List.mem_append_left _ hc, e⟩

theorem CutsFor.skip {D : Finset V} {bal : V → Prop} {side : V → Finset V} {cuts : List (Cut V)}
    (h : CutsFor par D bal side cuts) {x : V} (hb : ¬ bal x) : CutsFor par (insert x D) bal side cuts := by
  refine ⟨h.nodup, fun c hc => ?_, fun y hy hby => ?_⟩
  · obtain ⟨h1, h2⟩ := h.sound c hc
    exact ⟨Finset.mem_insert_of_mem h1, h2⟩
  · rcases Finset.mem_insert.1 hy with rfl | hy
    · exact absurd hby hb
    · exact h.complete y hy hby

/-- invariant of the contraction loop; `D` is the set of contracted nodes -/
structure ContrInv (T : Graph V) (root : V) (par : V → V) (pop : V → ℚ) (bal : V → Prop)
    (D : Finset V) (st : ContrState V) : Prop where
  sub_nodes : ∀ x ∈ D, x ∈ T.nodes ∧ x ≠ root
  down : ∀ x ∈ D, kids T root par x ⊆ D
  subsets : ∀ v ∈ T.nodes, v ∉ D → st.subsets v = insert v ((kids T root par v ∩ D).biUnion (sub T root par))
  pops : ∀ v ∈ T.nodes, v ∉ D → st.population v = popOf pop (st.subsets v)
  degs : ∀ v ∈ T.nodes, v ∉ D → st.degrees v = (T.degree v : ℤ) - (kids T root par v ∩ D).card
  queue_nodup : st.leaves.Nodup
  queue : ∀ x, x ∈ st.leaves ↔ x ∈ T.nodes ∧ x ∉ D ∧ x ≠ root ∧ st.degrees x = 1
  cuts : CutsFor par D bal (sub T root par) st.cuts

theorem contractionLoop_spec (hRt : Rooted T root par rank) (R : Rand S) (hR : R.Valid) (h : PopGraph V)
    (oneSided : Bool) (pred : Dict V V) (hpred : ∀ v ∈ T.nodes, v ≠ root → pred.get? v = some (par v)) :
    ∀ (n : ℕ) (D : Finset V) (st : ContrState V) (w : S),
      ContrInv T root par h.population (fun x => h.hasIdeal oneSided (popOf h.population (sub T root par x)) = true) D st →
      T.nodes.card - D.card ≤ n → 0 < n →
      ∃ cuts w', contractionLoop R h oneSided pred root n st w = (.ok cuts, w') ∧
        CutsFor par (T.nodes.erase root)
          (fun x => h.hasIdeal oneSided (popOf h.population (sub T root par x)) = true) (sub T root par) cuts := by
  intro n
  induction n with
  | zero => intro D st w _ _ h0; omega
  | succ n ih =>
    intro D st w hI hcard _
    unfold contractionLoop
    rcases hl : st.leaves with _ | ⟨leaf, rest⟩
    · -- done: everything has been contracted
      refine ⟨st.cuts, w, rfl, ?_⟩
      have hD : D = T.nodes.erase root := by
        ext x
        rw [Finset.mem_erase]
        constructor
        · intro hx; exact ⟨(hI.sub_nodes x hx).2, (hI.sub_nodes x hx).1⟩
        · rintro ⟨hxr, hx⟩
          by_contra hxD
          -- a node of maximal rank among the remaining ones
          obtain ⟨y, hy, hmax⟩ := Finset.exists_max_image ((T.nodes.erase root) \ D) rank
            ⟨x, Finset.mem_sdiff.2 ⟨Finset.mem_erase.2 ⟨hxr, hx⟩, hxD⟩⟩
          rw [Finset.mem_sdiff, Finset.mem_erase] at hy
          obtain ⟨⟨hyr, hy⟩, hyD⟩ := hy
          have hk : kids T root par y ∩ D = kids T root par y := by
            rw [Finset.inter_eq_left]
            intro c hc
            by_contra hcD
            have hc' := hc
            simp only [kids, Finset.mem_filter] at hc'
            have := hmax c (Finset.mem_sdiff.2 ⟨Finset.mem_erase.2 ⟨hc'.2.1, hc'.1⟩, hcD⟩)
            have h2 := hRt.rank_lt c hc'.1 hc'.2.1
            rw [hc'.2.2] at h2
            omega
          have hdg := hI.degs y hy hyD
          rw [hk, degree_eq hRt hy, if_neg hyr] at hdg
          have : y ∈ st.leaves := (hI.queue y).2 ⟨hy, hyD, hyr, by rw [hdg]; push_cast; omega⟩
          rw [hl] at this
          simp at this
      have := hI.cuts
      rw [hD] at this
      exact this
    · have hleaf : leaf ∈ st.leaves := by rw [hl]; exact List.mem_cons_self ..
      obtain ⟨hn, hnD, hr, hdeg⟩ := (hI.queue leaf).1 hleaf
      have hk : kids T root par leaf ∩ D = kids T root par leaf := by
        have h1 := hI.degs leaf hn hnD
        rw [hdeg, degree_eq hRt hn, if_neg hr] at h1
        refine Finset.eq_of_subset_of_card_le Finset.inter_subset_left ?_
        push_cast at h1
        omega
      have hsub : st.subsets leaf = sub T root par leaf := by
        rw [hI.subsets leaf hn hnD, hk, ← sub_eq hRt hn]
      have hpop : st.population leaf = popOf h.population (sub T root par leaf) := by
        rw [hI.pops leaf hn hnD, hsub]
      set p := par leaf with hp
      have hpn : p ∈ T.nodes := hRt.par_mem leaf hn hr
      have hlk : leaf ∈ kids T root par p := Finset.mem_filter.2 ⟨hn, hr, rfl⟩
      have hpD : p ∉ D := fun hpD => hnD (hI.down p hpD hlk)
      have hpl : p ≠ leaf := by
        intro e
        have := hRt.rank_lt leaf hn hr
        rw [← hp, e] at this
        omega
      have hget := hpred leaf hn hr
      -- the cuts after the test
      have hcuts : ∃ cuts w', contrCut R h oneSided pred st leaf w = (.ok cuts, w') ∧
          CutsFor par (insert leaf D)
            (fun x => h.hasIdeal oneSided (popOf h.population (sub T root par x)) = true) (sub T root par) cuts := by
        unfold contrCut
        by_cases hb : h.hasIdeal oneSided (st.population leaf) = true
        · rw [if_pos hb]
          obtain ⟨r, w1, hr1, _⟩ := hR.random_ok w
          rw [M.bind_ok (Dict.lift_get hget w), M.bind_ok hr1]
          refine ⟨_, _, rfl, ?_⟩
          rw [hpop] at hb
          rw [hsub]
          exact hI.cuts.snoc hnD hb
        · rw [if_neg hb]
          refine ⟨_, _, rfl, ?_⟩
          rw [hpop] at hb
          exact hI.cuts.skip hb
      obtain ⟨cuts, w1, hc1, hc2⟩ := hcuts
      simp only
      rw [M.bind_ok hc1, M.bind_ok (Dict.lift_get hget w1)]
      have hcardD : (insert leaf D).card = D.card + 1 := Finset.card_insert_of_notMem hnD
      -- children of the other nodes
      have hkother : ∀ v, v ≠ p → kids T root par v ∩ insert leaf D = kids T root par v ∩ D := by
        intro v hv
        rw [Finset.inter_insert_of_notMem]
        intro hm
        simp only [kids, Finset.mem_filter] at hm
        exact hv hm.2.2.symm
      have hkp : kids T root par p ∩ insert leaf D = insert leaf (kids T root par p ∩ D) :=
        Finset.inter_insert_of_mem hlk
      have hlnot : leaf ∉ kids T root par p ∩ D := fun hm => hnD (Finset.mem_inter.1 hm).2
      have hdegp : st.degrees p ≠ 1 ∨ p = root := by
        by_cases hpr : p = root
        · exact Or.inr hpr
        · left
          intro h1
          have h2 := hI.degs p hpn hpD
          rw [h1, degree_eq hRt hpn, if_neg hpr] at h2
          have h3 : (kids T root par p ∩ D).card + 1 ≤ (kids T root par p).card := by
            rw [← Finset.card_insert_of_notMem hlnot]
            apply Finset.card_le_card
            intro c hc
            rcases Finset.mem_insert.1 hc with rfl | hc
            · exact hlk
            · exact (Finset.mem_inter.1 hc).1
          push_cast at h2
          omega
      have hpq : p ∉ st.leaves := by
        intro hm
        have := (hI.queue p).1 hm
        rcases hdegp with h1 | h1
        · exact h1 this.2.2.2
        · exact this.2.2.1 h1
      have hrest : rest.Nodup ∧ leaf ∉ rest := by
        have := hI.queue_nodup
        rw [hl, List.nodup_cons] at this
        exact ⟨this.2, this.1⟩
      have hprest : p ∉ rest := fun hm => hpq (by rw [hl]; exact List.mem_cons_of_mem _ hm)
      have hInv : ContrInv T root par h.population
          (fun x => h.hasIdeal oneSided (popOf h.population (sub T root par x)) = true) (insert leaf D)
          (st.contract root leaf p rest cuts) := by
        constructor
        · intro x hx
          rcases Finset.mem_insert.1 hx with rfl | hx
          · exact ⟨hn, hr⟩
          · exact hI.sub_nodes x hx
        · intro x hx
          rcases Finset.mem_insert.1 hx with rfl | hx
          · rw [Finset.inter_eq_left] at hk
            exact hk.trans (Finset.subset_insert ..)
          · exact (hI.down x hx).trans (Finset.subset_insert ..)
        · intro v hv hvD
          rw [Finset.mem_insert, not_or] at hvD
          show Function.update st.subsets p _ v = _
          by_cases hvp : v = p
          · subst hvp
            rw [Function.update_self, hkp, Finset.biUnion_insert, hI.subsets p hpn hpD, hsub]
            ext z
            simp only [Finset.mem_union, Finset.mem_insert]
            tauto
          · rw [Function.update_of_ne hvp, hkother v hvp]
            exact hI.subsets v hv hvD.2
        · intro v hv hvD
          rw [Finset.mem_insert, not_or] at hvD
          show Function.update st.population p _ v = popOf h.population (Function.update st.subsets p _ v)
          by_cases hvp : v = p
          · subst hvp
            rw [Function.update_self, Function.update_self, hI.pops p hpn hpD, hpop, hsub]
            unfold popOf
            rw [Finset.sum_union]
            rw [hI.subsets p hpn hpD, Finset.disjoint_left]
            intro z hz hz2
            rcases Finset.mem_insert.1 hz with rfl | hz
            · exact not_mem_kid_sub hRt hlk hz2
            · obtain ⟨c, hc, hz⟩ := Finset.mem_biUnion.1 hz
              have hcl : c ≠ leaf := by rintro rfl; exact hlnot hc
              exact Finset.disjoint_left.1 (kids_disjoint hRt (Finset.mem_inter.1 hc).1 hlk hcl) hz hz2
          · rw [Function.update_of_ne hvp, Function.update_of_ne hvp]
            exact hI.pops v hv hvD.2
        · intro v hv hvD
          rw [Finset.mem_insert, not_or] at hvD
          show Function.update st.degrees p _ v = _
          by_cases hvp : v = p
          · subst hvp
            rw [Function.update_self, hkp, Finset.card_insert_of_notMem hlnot, hI.degs p hpn hpD]
            push_cast
            ring
          · rw [Function.update_of_ne hvp, hkother v hvp]
            exact hI.degs v hv hvD.2
        · show (if _ then rest ++ [p] else rest).Nodup
          split
          · rw [List.nodup_append]
            refine ⟨hrest.1, by simp, ?_⟩
            intro a ha b hb hab
            rw [List.mem_singleton.1 hb] at hab
            subst hab
            exact hprest ha
          · exact hrest.1
        · intro x
          have hd : (st.contract root leaf p rest cuts).degrees = Function.update st.degrees p (st.degrees p - 1) := rfl
          have hlv : (st.contract root leaf p rest cuts).leaves =
              if Function.update st.degrees p (st.degrees p - 1) p = 1 ∧ p ≠ root then rest ++ [p] else rest := rfl
          rw [hd, hlv, Finset.mem_insert, not_or]
          by_cases hxp : x = p
          · subst hxp
            split
            · rename_i hc
              simp only [List.mem_append, List.mem_singleton, or_true, true_iff]
              exact ⟨hpn, ⟨hpl, hpD⟩, hc.2, hc.1⟩
            · rename_i hc
              constructor
              · intro hm; exact absurd hm hprest
              · rintro ⟨_, _, h3, h4⟩
                exact absurd ⟨h4, h3⟩ hc
          · rw [Function.update_of_ne hxp]
            have : (x ∈ if Function.update st.degrees p (st.degrees p - 1) p = 1 ∧ p ≠ root then rest ++ [p] else rest) ↔
                x ∈ rest := by
              split <;> simp [hxp]
            rw [this]
            have hq := hI.queue x
            rw [hl, List.mem_cons] at hq
            constructor
            · intro hm
              obtain ⟨a1, a2, a3, a4⟩ := hq.1 (Or.inr hm)
              refine ⟨a1, ⟨?_, a2⟩, a3, a4⟩
              rintro rfl
              exact hrest.2 hm
            · rintro ⟨a1, ⟨a2, a3⟩, a4, a5⟩
              exact (hq.2 ⟨a1, a3, a4, a5⟩).resolve_left a2
        · exact hc2
      refine ih (insert leaf D) _ w1 hInv ?_ ?_
      · rw [hcardD]; omega
      · have : (insert leaf D) ⊆ T.nodes.erase root := by
          intro x hx
          obtain ⟨a, b⟩ := hInv.sub_nodes x hx
          exact Finset.mem_erase.2 ⟨b, a⟩
        have h2 := Finset.card_le_card this
        rw [hcardD, Finset.card_erase_of_mem hRt.root_mem] at h2
        have h3 : 0 < T.nodes.card := Finset.card_pos.2 ⟨root, hRt.root_mem⟩
        omega

/-- the state at the start of the loop satisfies the invariant -/
theorem contrInv_init (hRt : Rooted T root par rank) (hdr : T.degree root > 1) (pop : V → ℚ) (bal : V → Prop) :
    ContrInv T root par pop bal ∅
      { population := pop, subsets := fun v => {v}, degrees := fun v => T.degree v
        leaves := (iter T.nodes).filter (fun x => T.degree x = 1), cuts := [] } := by
  constructor
  · simp
  · simp
  · intro v _ _; simp
  · intro v _ _; simp [popOf]
  · intro v _ _; simp
  · exact (nodup_iter _).filter _
  · intro x
    simp only [List.mem_filter, mem_iter, decide_eq_true_eq, Finset.notMem_empty, not_false_eq_true, true_and]
    constructor
    · rintro ⟨h1, h2⟩
      refine ⟨h1, ?_, by exact_mod_cast h2⟩
      rintro rfl; omega
    · rintro ⟨h1, _, h3⟩
      exact ⟨h1, by exact_mod_cast h3⟩
  · exact ⟨by simp, by simp, by simp⟩

end

end GC

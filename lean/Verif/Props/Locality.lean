import Verif.Model.Locality
import Verif.Props.Splits

/-!
# C30: locality splits
-/

set_option linter.unusedSectionVars false
set_option autoImplicit false

namespace GC

variable {V P L : Type} [LinearOrder V] [DecidableEq P] [DecidableEq L]

/-! ### the counters -/

theorem counter_fold (l : List L) (d : Dict L ℕ) (hd : d.WF) :
    (l.foldl (fun d x => d.modifyD x 0 (· + 1)) d).WF ∧
    ∀ x, (((l.foldl (fun d x => d.modifyD x 0 (· + 1)) d).get? x).getD 0 = ((d.get? x).getD 0) + l.count x) ∧
      (x ∈ (l.foldl (fun d x => d.modifyD x 0 (· + 1)) d).keys ↔ x ∈ d.keys ∨ x ∈ l) := by
  induction l generalizing d with
  | nil => exact ⟨hd, by simp⟩
  | cons y l ih =>
    obtain ⟨h1, h2⟩ := ih (d.modifyD y 0 (· + 1)) (hd.modifyD _ _ _)
    refine ⟨h1, fun x => ⟨?_, ?_⟩⟩
    · rw [List.foldl_cons, (h2 x).1, Dict.get?_modifyD, List.count_cons]
      by_cases hxy : x = y
      · subst hxy; simp; omega
      · have : ¬ y = x := fun h => hxy h.symm
        simp [hxy, this]
    · rw [List.foldl_cons, (h2 x).2]
      have : x ∈ (d.modifyD y 0 (· + 1)).keys ↔ x = y ∨ x ∈ d.keys := by
        unfold Dict.modifyD; exact Dict.mem_keys_set
      rw [this, List.mem_cons]
      tauto

theorem counter_wf (l : List L) : (counter l).WF := (counter_fold l _ Dict.wf_empty).1

theorem mem_counter {l : List L} {x : L} : x ∈ (counter l).keys ↔ x ∈ l := by
  have := ((counter_fold l _ Dict.wf_empty).2 x).2
  simpa [counter] using this

theorem counter_length (l : List L) : (counter l).keys.length = l.toFinset.card := by
  rw [← List.toFinset_card_of_nodup (counter_wf l)]
  congr 1
  ext x
  simp [mem_counter]

theorem localityDict_get? {nodes : Finset V} {col : V → L} {v : V} (hv : v ∈ nodes) :
    (localityDict nodes col).get? v = some (col v) := by
  apply Dict.get?_of_mem_entries
  · unfold Dict.WF Dict.keys localityDict
    simp only [List.map_map, Function.comp_def, List.map_id']
    exact nodup_iter _
  · exact List.mem_map.2 ⟨v, mem_iter.2 hv, rfl⟩

theorem mapM_localities {nodes : Finset V} {col : V → L} (l : List V) (hl : ∀ v ∈ l, v ∈ nodes) :
    l.mapM (fun v => (localityDict nodes col).get v) = (.ok (l.map col) : Py _) := by
  induction l with
  | nil => rfl
  | cons x l ih =>
    rw [List.mapM_cons, ih (fun v hv => hl v (List.mem_cons_of_mem _ hv)),
      Dict.get_eq_ok_iff.2 (localityDict_get? (hl x List.mem_cons_self))]
    rfl

/-- The counters of a plan. -/
def splitsOf (col : V → L) (parts : Dict P (Finset V)) : Dict P (Dict L ℕ) :=
  ⟨parts.entries.map (fun e => (e.1, counter ((iter e.2).map col)))⟩

theorem localitySplits_ok {nodes : Finset V} {col : V → L} {parts : Dict P (Finset V)}
    (hp : ∀ e ∈ parts.entries, e.2 ⊆ nodes) :
    localitySplits (localityDict nodes col) parts = .ok (splitsOf col parts) := by
  unfold localitySplits splitsOf
  have : ∀ (l : List (P × Finset V)), (∀ e ∈ l, e.2 ⊆ nodes) → l.mapM (fun e => (do
      let names ← (iter e.2).mapM (fun v => (localityDict nodes col).get v)
      return (e.1, counter names) : Py (P × Dict L ℕ))) = .ok (l.map (fun e => (e.1, counter ((iter e.2).map col)))) := by
    intro l hl
    induction l with
    | nil => rfl
    | cons x l ih =>
      rw [List.mapM_cons, ih (fun e he => hl e (List.mem_cons_of_mem _ he)),
        mapM_localities _ (fun v hv => hl x List.mem_cons_self (mem_iter.1 hv))]
      rfl
  rw [this _ hp]
  rfl

/-! ### num_parts -/

theorem foldl_add_map {α : Type} (f : α → ℕ) (l : List α) (n : ℕ) : l.foldl (fun n x => n + f x) n = n + (l.map f).sum := by
  induction l generalizing n with
  | nil => simp
  | cons x l ih => rw [List.foldl_cons, ih]; simp; omega

theorem splitsOf_keys (col : V → String) (parts : Dict P (Finset V)) : (splitsOf col parts).keys = parts.keys := by
  unfold splitsOf Dict.keys; simp [Function.comp_def]

theorem numParts_ok {nodes : Finset V} {col : V → String} {a : Assignment V P} (hcoh : a.Coherent) (hcov : a.Covers nodes) :
    numParts (splitsOf col a.parts) = (nodes.image (fun v => (col v, a.mapping.get? v))).card := by
  unfold numParts Dict.values splitsOf
  rw [foldl_add_map, Nat.zero_add]
  simp only [List.map_map, Function.comp_def, counter_length]
  have h1 : (a.parts.entries.map (fun e => ((iter e.2).map col).toFinset.card)).sum =
      ∑ k ∈ a.parts.keys.toFinset, (((a.parts.get? k).getD ∅).image col).card := by
    rw [List.sum_toFinset _ hcoh.parts_wf]
    unfold Dict.keys
    rw [List.map_map]
    congr 1
    apply List.map_congr_left
    intro e he
    have := Dict.get?_of_mem_entries hcoh.parts_wf (k := e.1) (v := e.2) he
    simp only [Function.comp_def, this, Option.getD_some]
    congr 1
    ext x
    simp
  rw [h1]
  have h2 : nodes.image (fun v => (col v, a.mapping.get? v)) =
      a.parts.keys.toFinset.biUnion (fun k => (((a.parts.get? k).getD ∅).image col).image (fun c => (c, some k))) := by
    ext ⟨c, o⟩
    simp only [Finset.mem_image, Finset.mem_biUnion, List.mem_toFinset, Prod.mk.injEq]
    constructor
    · rintro ⟨v, hv, rfl, rfl⟩
      obtain ⟨k, hk⟩ := Dict.mem_keys_iff.1 ((hcov v).2 hv)
      have hkk := hcoh.complete v k hk
      obtain ⟨s, hs⟩ := Dict.mem_keys_iff.1 hkk
      exact ⟨k, hkk, col v, ⟨v, by rw [hs]; exact (hcoh.agree k s hs v).2 hk, rfl⟩, rfl, hk.symm⟩
    · rintro ⟨k, hk, c', ⟨v, hv, rfl⟩, rfl, rfl⟩
      obtain ⟨s, hs⟩ := Dict.mem_keys_iff.1 hk
      rw [hs] at hv
      have := (hcoh.agree k s hs v).1 hv
      exact ⟨v, (hcov v).1 (Dict.mem_keys_iff.2 ⟨k, this⟩), rfl, this⟩
  rw [h2, Finset.card_biUnion]
  · refine Finset.sum_congr rfl fun k _ => ?_
    refine (Finset.card_image_of_injective _ ?_).symm
    intro x y h
    exact (Prod.mk.inj h).1
  · intro k _ k' _ hne
    rw [Function.onFun, Finset.disjoint_left]
    rintro ⟨c, o⟩ h1 h2
    simp only [Finset.mem_image, Prod.mk.injEq] at h1 h2
    obtain ⟨_, _, _, rfl⟩ := h1
    obtain ⟨_, _, _, h⟩ := h2
    exact hne (Option.some.inj h).symm

/-! ### num_split_localities -/

/-- The inverted dictionary lists the pairs in `T`. -/
structure InvOK (inv : Dict String (Dict P ℕ)) (T : P → String → Prop) : Prop where
  wf : inv.WF
  keys : ∀ loc, loc ∈ inv.keys ↔ ∃ k, T k loc
  row : ∀ loc d, inv.get? loc = some d → d.WF ∧ ∀ k, k ∈ d.keys ↔ T k loc

theorem inv_inner (k : P) (l : List (String × ℕ)) (inv : Dict String (Dict P ℕ)) (T : P → String → Prop) (h : InvOK inv T) :
    InvOK (l.foldl (fun inv e2 => inv.modifyD e2.1 Dict.empty (fun d => d.set k e2.2)) inv)
      (fun k' loc => T k' loc ∨ k' = k ∧ loc ∈ l.map (·.1)) := by
  induction l generalizing inv T with
  | nil => simpa using h
  | cons e l ih =>
    have h1 : InvOK (inv.modifyD e.1 Dict.empty (fun d => d.set k e.2)) (fun k' loc => T k' loc ∨ k' = k ∧ loc = e.1) := by
      refine ⟨h.wf.modifyD _ _ _, ?_, ?_⟩
      · intro loc
        have : loc ∈ (inv.modifyD e.1 Dict.empty (fun d => d.set k e.2)).keys ↔ loc = e.1 ∨ loc ∈ inv.keys := by
          unfold Dict.modifyD; exact Dict.mem_keys_set
        rw [this, h.keys]
        constructor
        · rintro (rfl | ⟨k', hk⟩)
          · exact ⟨k, .inr ⟨rfl, rfl⟩⟩
          · exact ⟨k', .inl hk⟩
        · rintro ⟨k', hk | ⟨-, rfl⟩⟩
          · exact .inr ⟨k', hk⟩
          · exact .inl rfl
      · intro loc d hd
        rw [Dict.get?_modifyD] at hd
        by_cases hl : loc = e.1
        · subst hl
          simp only [if_true, Option.some.injEq] at hd
          subst hd
          rcases hg : inv.get? e.1 with _ | d0
          · have hno : ∀ k', ¬ T k' e.1 := by
              intro k' hk'
              exact Dict.get?_eq_none_iff.1 hg ((h.keys _).2 ⟨k', hk'⟩)
            simp only [Option.getD_none]
            refine ⟨Dict.wf_empty.set _ _, ?_⟩
            intro k'
            rw [Dict.mem_keys_set]
            simp [hno]
          · obtain ⟨g1, g2⟩ := h.row _ _ hg
            simp only [Option.getD_some]
            refine ⟨g1.set _ _, ?_⟩
            intro k'
            rw [Dict.mem_keys_set, g2]
            simp
            tauto
        · simp only [if_neg hl] at hd
          obtain ⟨g1, g2⟩ := h.row _ _ hd
          refine ⟨g1, ?_⟩
          intro k'
          rw [g2]
          simp [hl]
    have h2 := ih _ _ h1
    rw [List.foldl_cons]
    refine ⟨h2.wf, ?_, ?_⟩
    · intro loc
      rw [h2.keys]
      simp only [List.map_cons, List.mem_cons]
      constructor <;> rintro ⟨k', hk⟩ <;> refine ⟨k', ?_⟩ <;> tauto
    · intro loc d hd
      obtain ⟨g1, g2⟩ := h2.row loc d hd
      refine ⟨g1, fun k' => ?_⟩
      rw [g2]
      simp only [List.map_cons, List.mem_cons]
      tauto

theorem inv_outer (l : List (P × Dict String ℕ)) (inv : Dict String (Dict P ℕ)) (T : P → String → Prop) (h : InvOK inv T) :
    InvOK (l.foldl (fun inv e =>
      e.2.entries.foldl (fun inv e2 => inv.modifyD e2.1 Dict.empty (fun d => d.set e.1 e2.2)) inv) inv)
      (fun k loc => T k loc ∨ ∃ e ∈ l, e.1 = k ∧ loc ∈ e.2.keys) := by
  induction l generalizing inv T with
  | nil => simpa using h
  | cons e l ih =>
    have h2 := ih _ _ (inv_inner e.1 e.2.entries inv T h)
    rw [List.foldl_cons]
    have hT : ∀ k loc, ((T k loc ∨ k = e.1 ∧ loc ∈ e.2.entries.map (·.1)) ∨ ∃ e ∈ l, e.1 = k ∧ loc ∈ e.2.keys) ↔
        (T k loc ∨ ∃ e' ∈ e :: l, e'.1 = k ∧ loc ∈ e'.2.keys) := by
      intro k loc
      simp only [List.mem_cons, Dict.keys]
      constructor
      · rintro ((h | ⟨rfl, h⟩) | ⟨e', h1, h2⟩)
        · exact .inl h
        · exact .inr ⟨e, .inl rfl, rfl, h⟩
        · exact .inr ⟨e', .inr h1, h2⟩
      · rintro (h | ⟨e', (rfl | h1), h2, h3⟩)
        · exact .inl (.inl h)
        · exact .inl (.inr ⟨h2.symm, h3⟩)
        · exact .inr ⟨e', h1, h2, h3⟩
    refine ⟨h2.wf, ?_, ?_⟩
    · intro loc
      rw [h2.keys]
      exact exists_congr fun k => hT k loc
    · intro loc d hd
      obtain ⟨g1, g2⟩ := h2.row loc d hd
      exact ⟨g1, fun k => (g2 k).trans (hT k loc)⟩

theorem localitySplitsInv_ok {nodes : Finset V} {col : V → String} {a : Assignment V P} (hcoh : a.Coherent)
    (hcov : a.Covers nodes) : InvOK (localitySplitsInv (splitsOf col a.parts))
      (fun k loc => ∃ v ∈ nodes, col v = loc ∧ a.mapping.get? v = some k) := by
  have h := inv_outer (splitsOf col a.parts).entries Dict.empty (fun _ _ => False) ⟨Dict.wf_empty, by simp, by simp⟩
  have hT : ∀ k loc, (False ∨ ∃ e ∈ (splitsOf col a.parts).entries, e.1 = k ∧ loc ∈ e.2.keys) ↔
      ∃ v ∈ nodes, col v = loc ∧ a.mapping.get? v = some k := by
    intro k loc
    simp only [false_or, splitsOf, List.mem_map]
    constructor
    · rintro ⟨e', ⟨e, he, rfl⟩, rfl, hl⟩
      rw [mem_counter] at hl
      obtain ⟨v, hv, rfl⟩ := List.mem_map.1 hl
      rw [mem_iter] at hv
      have := (hcoh.agree e.1 e.2 (Dict.get?_of_mem_entries hcoh.parts_wf he) v).1 hv
      exact ⟨v, (hcov v).1 (Dict.mem_keys_iff.2 ⟨_, this⟩), rfl, this⟩
    · rintro ⟨v, hv, rfl, hk⟩
      obtain ⟨s, hs⟩ := Dict.mem_keys_iff.1 (hcoh.complete v k hk)
      refine ⟨_, ⟨(k, s), Dict.mem_entries_of_get? hs, rfl⟩, rfl, ?_⟩
      rw [mem_counter]
      exact List.mem_map.2 ⟨v, mem_iter.2 ((hcoh.agree k s hs v).2 hk), rfl⟩
  refine ⟨h.wf, ?_, ?_⟩
  · intro loc
    exact (h.keys loc).trans (exists_congr fun k => hT k loc)
  · intro loc d hd
    obtain ⟨g1, g2⟩ := h.row loc d hd
    exact ⟨g1, fun k => (g2 k).trans (hT k loc)⟩

theorem foldl_count {α : Type} (f : α → Prop) [DecidablePred f] (l : List α) (n : ℕ) :
    l.foldl (fun n x => if f x then n + 1 else n) n = n + l.countP (fun x => decide (f x)) := by
  induction l generalizing n with
  | nil => simp
  | cons x l ih =>
    rw [List.foldl_cons, ih, List.countP_cons]
    by_cases h : f x <;> simp [h]
    omega

open Classical in
theorem numSplitLocalities_ok {nodes : Finset V} {col : V → String} {a : Assignment V P} (hcoh : a.Coherent)
    (hcov : a.Covers nodes) : numSplitLocalities (localitySplitsInv (splitsOf col a.parts)) =
      ((nodes.image col).filter (SplitCounty nodes col a)).card := by
  have h := localitySplitsInv_ok (col := col) hcoh hcov
  unfold numSplitLocalities
  rw [foldl_count (fun d : Dict P ℕ => d.keys.length > 1), Nat.zero_add]
  set inv := localitySplitsInv (splitsOf col a.parts) with hinv
  have h1 : inv.values.countP (fun d => decide (d.keys.length > 1)) =
      (inv.keys.filter (fun c => decide (SplitCounty nodes col a c))).length := by
    unfold Dict.values Dict.keys
    rw [List.countP_map, ← List.countP_eq_length_filter, List.countP_map]
    apply List.countP_congr
    intro e he
    obtain ⟨g1, g2⟩ := h.row e.1 e.2 (Dict.get?_of_mem_entries h.wf he)
    simp only [Function.comp_def, decide_eq_true_eq]
    have g3 : e.2.entries.length = e.2.keys.toFinset.card := by
      rw [List.toFinset_card_of_nodup g1]; simp [Dict.keys]
    rw [List.length_map, g3, gt_iff_lt, Finset.one_lt_card]
    simp only [List.mem_toFinset, g2]
    constructor
    · rintro ⟨p, ⟨x, hx, hxc, hxp⟩, q, ⟨y, hy, hyc, hyq⟩, hne⟩
      exact ⟨x, hx, y, hy, hxc, hyc, by rw [hxp, hyq]; simpa using hne⟩
    · rintro ⟨x, hx, y, hy, hxc, hyc, hne⟩
      obtain ⟨p, hp⟩ := Dict.mem_keys_iff.1 ((hcov x).2 hx)
      obtain ⟨q, hq⟩ := Dict.mem_keys_iff.1 ((hcov y).2 hy)
      refine ⟨p, ⟨x, hx, hxc, hp⟩, q, ⟨y, hy, hyc, hq⟩, ?_⟩
      rintro rfl
      exact hne (hp.trans hq.symm)
  rw [h1, ← List.toFinset_card_of_nodup (h.wf.filter _)]
  congr 1
  ext c
  simp only [List.mem_toFinset, List.mem_filter, decide_eq_true_eq, Finset.mem_filter, Finset.mem_image]
  refine and_congr_left fun hsp => ?_
  rw [h.keys]
  constructor
  · rintro ⟨k, v, hv, hc, -⟩
    exact ⟨v, hv, hc⟩
  · rintro ⟨v, hv, hc⟩
    obtain ⟨k, hk⟩ := Dict.mem_keys_iff.1 ((hcov v).2 hv)
    exact ⟨k, v, hv, hc, hk⟩

/-! ### num_pieces -/

/-- The number of components is determined. -/
theorem IsComponents.length_eq {G : Graph V} {s : Finset V} {cs cs' : List (Finset V)} (h : IsComponents G s cs)
    (h' : IsComponents G s cs') : cs.length = cs'.length := by
  have hnd : ∀ {cs : List (Finset V)}, IsComponents G s cs → cs.Nodup := by
    intro cs h
    refine (List.Pairwise.and_mem.1 h.disjoint).imp ?_
    rintro c c' ⟨hc, -, hd⟩ rfl
    obtain ⟨x, hx⟩ := (h.connected c hc).1
    exact (Finset.disjoint_left.1 hd hx hx)
  have hsub : ∀ {cs cs' : List (Finset V)}, IsComponents G s cs → IsComponents G s cs' → ∀ c ∈ cs, ∀ c' ∈ cs', ∀ x ∈ c, x ∈ c' →
      c ⊆ c' := by
    intro cs cs' h h' c hc c' hc' x hx hx' y hy
    have := (h.connected c hc).2 x hx y hy
    clear hy
    induction this with
    | refl => exact hx'
    | @tail b d _ hs ih => exact h'.closed c' hc' b ih d (h.sub c hc hs.2.2) hs.1
  have hmem : ∀ {cs cs' : List (Finset V)}, IsComponents G s cs → IsComponents G s cs' → ∀ c ∈ cs, c ∈ cs' := by
    intro cs cs' h h' c hc
    obtain ⟨x, hx⟩ := (h.connected c hc).1
    obtain ⟨c', hc', hx'⟩ := h'.cover x (h.sub c hc hx)
    rw [(hsub h h' c hc c' hc' x hx hx').antisymm (hsub h' h c' hc' c hc x hx' hx)]
    exact hc'
  rw [← List.toFinset_card_of_nodup (hnd h), ← List.toFinset_card_of_nodup (hnd h')]
  congr 1
  ext c
  simp only [List.mem_toFinset]
  exact ⟨hmem h h' c, hmem h' h c⟩

/-- Components of a union of separate pieces. -/
theorem IsComponents.flatMap {ι : Type} {G : Graph V} {S : Finset V} {I : List ι} {s : ι → Finset V}
    {cs : ι → List (Finset V)} (hc : ∀ i ∈ I, IsComponents G (s i) (cs i)) (hs : ∀ i ∈ I, s i ⊆ S)
    (hcov : ∀ x ∈ S, ∃ i ∈ I, x ∈ s i) (hdis : I.Pairwise (fun i j => Disjoint (s i) (s j)))
    (hcl : ∀ i ∈ I, ∀ x ∈ s i, ∀ y ∈ S, G.Adj x y → y ∈ s i) : IsComponents G S (I.flatMap cs) := by
  refine ⟨?_, ?_, ?_, ?_, ?_⟩
  · intro x hx
    obtain ⟨i, hi, hxi⟩ := hcov x hx
    obtain ⟨c, h1, h2⟩ := (hc i hi).cover x hxi
    exact ⟨c, List.mem_flatMap.2 ⟨i, hi, h1⟩, h2⟩
  · intro c h
    obtain ⟨i, hi, h1⟩ := List.mem_flatMap.1 h
    exact ((hc i hi).sub c h1).trans (hs i hi)
  · intro c h
    obtain ⟨i, hi, h1⟩ := List.mem_flatMap.1 h
    exact (hc i hi).connected c h1
  · intro c h x hx y hy ha
    obtain ⟨i, hi, h1⟩ := List.mem_flatMap.1 h
    exact (hc i hi).closed c h1 x hx y (hcl i hi x ((hc i hi).sub c h1 hx) y hy ha) ha
  · rw [List.pairwise_flatMap]
    refine ⟨fun i hi => (hc i hi).disjoint, ?_⟩
    refine (List.Pairwise.and_mem.1 hdis).imp ?_
    rintro i j ⟨hi, hj, hd⟩ x hx y hy
    exact Finset.disjoint_of_subset_left ((hc i hi).sub x hx) (Finset.disjoint_of_subset_right ((hc j hj).sub y hy) hd)

/-- The graph cut by both locality and district boundaries. -/
def pieceGraph (G : Graph V) (col : V → String) (a : Assignment V P) : Graph V :=
  ⟨G.nodes, G.edges.filter (fun e => col e.1 = col e.2 ∧ a.mapping.get? e.1 = a.mapping.get? e.2)⟩

theorem pieceGraph_adj {G : Graph V} {col : V → String} {a : Assignment V P} {x y : V} :
    (pieceGraph G col a).Adj x y ↔ G.Adj x y ∧ col x = col y ∧ a.mapping.get? x = a.mapping.get? y := by
  simp only [pieceGraph, Graph.Adj, Finset.mem_filter]
  constructor
  · rintro (⟨h1, h2, h3⟩ | ⟨h1, h2, h3⟩)
    · exact ⟨.inl h1, h2, h3⟩
    · exact ⟨.inr h1, h2.symm, h3.symm⟩
  · rintro ⟨h1 | h1, h2, h3⟩
    · exact .inl ⟨h1, h2, h3⟩
    · exact .inr ⟨h1, h2.symm, h3.symm⟩

/-- The districts met by each locality. -/
structure InterOK (d : Dict String (Finset P)) (l : List V) (col : V → String) (m : Dict V P) : Prop where
  wf : d.WF
  keys : ∀ c, c ∈ d.keys ↔ ∃ v ∈ l, col v = c
  row : ∀ c s, d.get? c = some s → ∀ k, k ∈ s ↔ ∃ v ∈ l, col v = c ∧ m.get? v = some k

theorem localityIntersections_ok {nodes : Finset V} {col : V → String} {m : Dict V P} (hm : ∀ v ∈ nodes, v ∈ m.keys) :
    ∃ d, localityIntersections nodes col m = .ok d ∧ InterOK d (iter nodes) col m := by
  unfold localityIntersections
  have : ∀ (l l0 : List V) (d : Dict String (Finset P)), (∀ v ∈ l, v ∈ m.keys) → InterOK d l0 col m →
      ∃ d', l.foldlM (fun (d : Dict String (Finset P)) n => (do
        let part ← m.get n
        return d.modifyD (col n) ∅ (insert part) : Py _)) d = .ok d' ∧ InterOK d' (l0 ++ l) col m := by
    intro l
    induction l with
    | nil => intro l0 d _ h; exact ⟨d, rfl, by simpa using h⟩
    | cons x l ih =>
      intro l0 d hl h
      obtain ⟨k, hk⟩ := Dict.mem_keys_iff.1 (hl x List.mem_cons_self)
      rw [List.foldlM_cons, Dict.get_eq_ok_iff.2 hk]
      have h1 : InterOK (d.modifyD (col x) ∅ (insert k)) (l0 ++ [x]) col m := by
        refine ⟨h.wf.modifyD _ _ _, ?_, ?_⟩
        · intro c
          have : c ∈ (d.modifyD (col x) ∅ (insert k)).keys ↔ c = col x ∨ c ∈ d.keys := by
            unfold Dict.modifyD; exact Dict.mem_keys_set
          rw [this, h.keys]
          simp only [List.mem_append, List.mem_singleton]
          constructor
          · rintro (rfl | ⟨v, hv, rfl⟩)
            · exact ⟨x, .inr rfl, rfl⟩
            · exact ⟨v, .inl hv, rfl⟩
          · rintro ⟨v, (hv | rfl), rfl⟩
            · exact .inr ⟨v, hv, rfl⟩
            · exact .inl rfl
        · intro c s hs k'
          rw [Dict.get?_modifyD] at hs
          by_cases hc : c = col x
          · subst hc
            simp only [if_true, Option.some.injEq] at hs
            subst hs
            rw [Finset.mem_insert]
            have hold : k' ∈ (d.get? (col x)).getD ∅ ↔ ∃ v ∈ l0, col v = col x ∧ m.get? v = some k' := by
              rcases hg : d.get? (col x) with _ | s0
              · simp only [Option.getD_none, Finset.notMem_empty, false_iff]
                rintro ⟨v, hv, hc, -⟩
                exact Dict.get?_eq_none_iff.1 hg ((h.keys _).2 ⟨v, hv, hc⟩)
              · exact h.row _ _ hg k'
            rw [hold]
            simp only [List.mem_append, List.mem_singleton]
            constructor
            · rintro (rfl | ⟨v, hv, hr⟩)
              · exact ⟨x, .inr rfl, rfl, hk⟩
              · exact ⟨v, .inl hv, hr⟩
            · rintro ⟨v, (hv | rfl), hr⟩
              · exact .inr ⟨v, hv, hr⟩
              · left
                have := hr.2
                rw [hk] at this
                exact (Option.some.inj this).symm
          · simp only [if_neg hc] at hs
            rw [h.row c s hs]
            simp only [List.mem_append, List.mem_singleton]
            constructor
            · rintro ⟨v, hv, hr⟩; exact ⟨v, .inl hv, hr⟩
            · rintro ⟨v, (hv | rfl), hr⟩
              · exact ⟨v, hv, hr⟩
              · exact absurd hr.1.symm hc
      obtain ⟨d', g1, g2⟩ := ih (l0 ++ [x]) _ (fun v hv => hl v (List.mem_cons_of_mem _ hv)) h1
      exact ⟨d', g1, by simpa using g2⟩
  obtain ⟨d, h1, h2⟩ := this (iter nodes) [] Dict.empty (fun v hv => hm v (mem_iter.1 hv)) ⟨Dict.wf_empty, by simp, by simp⟩
  exact ⟨d, h1, by simpa using h2⟩

theorem foldlM_add {α : Type} (g : α → ℕ) (f : α → Py ℕ) (l : List α) (h : ∀ x ∈ l, f x = .ok (g x)) (n : ℕ) :
    l.foldlM (fun n x => (do let y ← f x; return n + y : Py ℕ)) n = .ok (n + (l.map g).sum) := by
  induction l generalizing n with
  | nil => simp [pure, Except.pure]
  | cons x l ih =>
    rw [List.foldlM_cons, h x List.mem_cons_self]
    simp only [bind, Except.bind, pure, Except.pure]
    have := ih (fun y hy => h y (List.mem_cons_of_mem _ hy)) (n + g x)
    simp only [bind, Except.bind, pure, Except.pure] at this
    rw [this]
    simp; omega

theorem foldlM_add' {α : Type} (g : α → ℕ) (f : ℕ → α → Py ℕ) (l : List α) (h : ∀ x ∈ l, ∀ n, f n x = .ok (n + g x)) (n : ℕ) :
    l.foldlM f n = .ok (n + (l.map g).sum) := by
  induction l generalizing n with
  | nil => simp [pure, Except.pure]
  | cons x l ih =>
    rw [List.foldlM_cons, h x List.mem_cons_self]
    simp only [bind, Except.bind]
    rw [ih (fun y hy => h y (List.mem_cons_of_mem _ hy))]
    simp; omega

theorem numPieces_ok (ord : SetOrder P) {G : Graph V} (hG : G.WF) {col : V → String} {a : Assignment V P} (hcoh : a.Coherent)
    (hcov : a.Covers G.nodes) : ∃ n, numPieces ord G col a = .ok n ∧
      ∀ cs, IsComponents (pieceGraph G col a) G.nodes cs → n = cs.length := by
  obtain ⟨inter, hin, hok⟩ := localityIntersections_ok (col := col) (m := a.mapping) (fun v hv => (hcov v).2 hv)
  let piece : String × P → Finset V := fun i => ((a.parts.get? i.2).getD ∅).filter (fun x => col x = i.1)
  let comps : String × P → List (Finset V) := fun i => connectedComponents (G.subgraph (piece i))
  let I : List (String × P) := inter.entries.flatMap (fun e => (ord.list e.2).map (fun d => (e.1, d)))
  have hI : ∀ i, i ∈ I ↔ ∃ v ∈ G.nodes, col v = i.1 ∧ a.mapping.get? v = some i.2 := by
    intro i
    simp only [I, List.mem_flatMap, List.mem_map]
    constructor
    · rintro ⟨e, he, d, hd, rfl⟩
      rw [ord.mem] at hd
      obtain ⟨v, hv, hr⟩ := (hok.row e.1 e.2 (Dict.get?_of_mem_entries hok.wf he) d).1 hd
      exact ⟨v, mem_iter.1 hv, hr⟩
    · rintro ⟨v, hv, hc, hk⟩
      obtain ⟨s, hs⟩ := Dict.mem_keys_iff.1 ((hok.keys i.1).2 ⟨v, mem_iter.2 hv, hc⟩)
      refine ⟨(i.1, s), Dict.mem_entries_of_get? hs, i.2, ?_, rfl⟩
      rw [ord.mem]
      exact (hok.row i.1 s hs i.2).2 ⟨v, mem_iter.2 hv, hc, hk⟩
  have hpiece : ∀ i ∈ I, ∀ x, x ∈ piece i ↔ x ∈ G.nodes ∧ col x = i.1 ∧ a.mapping.get? x = some i.2 := by
    intro i hi x
    obtain ⟨v, hv, hc, hk⟩ := (hI i).1 hi
    obtain ⟨s, hs⟩ := Dict.mem_keys_iff.1 (hcoh.complete v i.2 hk)
    simp only [piece, hs, Option.getD_some, Finset.mem_filter, hcoh.agree i.2 s hs]
    constructor
    · rintro ⟨h1, h2⟩
      exact ⟨(hcov x).1 (Dict.mem_keys_iff.2 ⟨_, h1⟩), h2, h1⟩
    · rintro ⟨-, h2, h1⟩
      exact ⟨h1, h2⟩
  have hcomp : IsComponents (pieceGraph G col a) G.nodes (I.flatMap comps) := by
    apply IsComponents.flatMap (s := piece)
    · intro i hi
      have hsub : piece i ⊆ G.nodes := fun x hx => ((hpiece i hi x).1 hx).1
      have h := isComponents_subgraph hsub (connectedComponents_spec (hG.subgraph (piece i)))
      have hadj : ∀ x ∈ piece i, ∀ y ∈ piece i, ((pieceGraph G col a).Adj x y ↔ G.Adj x y) := by
        intro x hx y hy
        rw [pieceGraph_adj]
        obtain ⟨-, h1, h2⟩ := (hpiece i hi x).1 hx
        obtain ⟨-, h3, h4⟩ := (hpiece i hi y).1 hy
        simp [h1, h2, h3, h4]
      refine ⟨h.cover, h.sub, ?_, ?_, h.disjoint⟩
      · intro c hc
        refine (connectedOn_congr ?_).1 (h.connected c hc)
        intro u hu v hv
        exact (hadj u (h.sub c hc hu) v (h.sub c hc hv)).symm
      · intro c hc x hx y hy hxy
        exact h.closed c hc x hx y hy ((hadj x (h.sub c hc hx) y hy).1 hxy)
    · intro i hi x hx
      exact ((hpiece i hi x).1 hx).1
    · intro x hx
      obtain ⟨k, hk⟩ := Dict.mem_keys_iff.1 ((hcov x).2 hx)
      have hi : (col x, k) ∈ I := (hI _).2 ⟨x, hx, rfl, hk⟩
      exact ⟨_, hi, (hpiece _ hi x).2 ⟨hx, rfl, hk⟩⟩
    · have hnd : I.Nodup := by
        simp only [I, List.Nodup, List.pairwise_flatMap]
        refine ⟨?_, ?_⟩
        · intro e he
          exact (ord.nodup e.2).map (fun x y h => (Prod.mk.inj h).2)
        · have := hok.wf
          unfold Dict.WF Dict.keys at this
          refine (List.pairwise_map.1 this).imp ?_
          intro e e' hne x hx y hy
          obtain ⟨_, -, rfl⟩ := List.mem_map.1 hx
          obtain ⟨_, -, rfl⟩ := List.mem_map.1 hy
          intro h
          exact hne (Prod.mk.inj h).1
      refine (List.Pairwise.and_mem.1 hnd).imp ?_
      rintro i j ⟨hi, hj, hne⟩
      rw [Finset.disjoint_left]
      intro x hx hx'
      obtain ⟨-, h1, h2⟩ := (hpiece i hi x).1 hx
      obtain ⟨-, h3, h4⟩ := (hpiece j hj x).1 hx'
      apply hne
      rw [h2] at h4
      exact Prod.ext (h1.symm.trans h3) (Option.some.inj h4)
    · intro i hi x hx y hy hadj
      rw [pieceGraph_adj] at hadj
      obtain ⟨-, h1, h2⟩ := (hpiece i hi x).1 hx
      exact (hpiece i hi y).2 ⟨hy, hadj.2.1.symm.trans h1, hadj.2.2.symm.trans h2⟩
  refine ⟨(I.flatMap comps).length, ?_, fun cs h => hcomp.length_eq h⟩
  unfold numPieces
  rw [hin]
  simp only [bind, Except.bind]
  rw [foldlM_add' (fun e => ((ord.list e.2).map (fun d => (comps (e.1, d)).length)).sum)]
  · congr 1
    simp only [I, List.length_flatMap, List.map_flatMap, Nat.zero_add]
    induction inter.entries with
    | nil => rfl
    | cons e l ih => simp only [List.map_cons, List.sum_cons, ih, List.flatMap_cons, List.sum_append, List.map_map, Function.comp_def]
  · intro e he n
    rw [foldlM_add' (fun d => (comps (e.1, d)).length)]
    intro d hd n
    have hi : (e.1, d) ∈ I := List.mem_flatMap.2 ⟨e, he, List.mem_map.2 ⟨d, hd, rfl⟩⟩
    obtain ⟨v, hv, hc, hk⟩ := (hI _).1 hi
    obtain ⟨s, hs⟩ := Dict.mem_keys_iff.1 (hcoh.complete v d hk)
    rw [Dict.get_eq_ok_iff.2 hs]
    simp only [comps, piece, hs, Option.getD_some]
    rfl

/-! ### the stateful object -/

theorem scoreLoop_keys (score : String → Py (Option (Score P))) (l : List String) (d : Dict String (Option (Score P)))
    (hl : ∀ s ∈ l, s ∈ d.keys) : ∀ s, s ∈ (scoreLoop score l d).2.keys ↔ s ∈ d.keys := by
  induction l generalizing d with
  | nil => intro s; rfl
  | cons x l ih =>
    intro s
    unfold scoreLoop
    rcases hx : score x with e | (_ | y)
    · rfl
    · exact ih d (fun s hs => hl s (List.mem_cons_of_mem _ hs)) s
    · simp only
      rw [ih _ (fun s hs => Dict.mem_keys_set.2 (.inr (hl s (List.mem_cons_of_mem _ hs)))), Dict.mem_keys_set]
      constructor
      · rintro (rfl | h)
        · exact hl _ List.mem_cons_self
        · exact h
      · exact .inr

theorem scoreLoop_other (score : String → Py (Option (Score P))) (l : List String) (d : Dict String (Option (Score P)))
    {s : String} (hs : s ∉ l ∨ score s = .ok none) : (scoreLoop score l d).2.get? s = d.get? s := by
  induction l generalizing d with
  | nil => rfl
  | cons x l ih =>
    unfold scoreLoop
    have hs' : s ∉ l ∨ score s = .ok none := by
      rcases hs with h | h
      · exact .inl fun h' => h (List.mem_cons_of_mem _ h')
      · exact .inr h
    rcases hx : score x with e | (_ | y)
    · rfl
    · exact ih d hs'
    · simp only
      rw [ih _ hs', Dict.get?_set_ne]
      rintro rfl
      rcases hs with h | h
      · exact h List.mem_cons_self
      · rw [hx] at h; cases h

theorem scoreLoop_ok (score : String → Py (Option (Score P))) (l : List String) (d d' : Dict String (Option (Score P)))
    (h : scoreLoop score l d = (.ok (), d')) {s : String} {x : Score P} (hs : s ∈ l) (hx : score s = .ok (some x)) :
    d'.get? s = some (some x) := by
  induction l generalizing d with
  | nil => cases hs
  | cons y l ih =>
    by_cases hsl : s ∈ l
    · unfold scoreLoop at h
      rcases hy : score y with e | (_ | z) <;> rw [hy] at h <;> simp only at h
      · cases h
      · exact ih _ h hsl
      · exact ih _ h hsl
    · have hsy : s = y := by
        rcases List.mem_cons.1 hs with h | h
        · exact h
        · exact absurd h hsl
      subst hsy
      unfold scoreLoop at h
      rw [hx] at h
      simp only at h
      have := scoreLoop_other score l (d.set s (some x)) (.inl hsl)
      rw [h] at this
      rw [this, Dict.get?_set_self]

theorem scoreLoop_all_ok (score : String → Py (Option (Score P))) (l : List String) (d : Dict String (Option (Score P)))
    (h : ∀ s ∈ l, ∃ o, score s = .ok o) : ∃ d', scoreLoop score l d = (.ok (), d') := by
  induction l generalizing d with
  | nil => exact ⟨d, rfl⟩
  | cons x l ih =>
    obtain ⟨o, ho⟩ := h x List.mem_cons_self
    unfold scoreLoop
    rw [ho]
    rcases o with _ | y <;> exact ih _ (fun s hs => h s (List.mem_cons_of_mem _ hs))

/-- The worlds that can arise from a new `LocalitySplits` object by scoring partitions of the heap `F`, in any order and
whatever `partition["cut_edges"]` answers. -/
inductive LocReach (ord : SetOrder P) (F : Frame V P) (field : String) (pop : V → ℚ) (toCompute : List String) :
    LocWorld V P → Prop
  | init (r : ℕ) : LocReach ord F field pop toCompute (LocWorld.init toCompute r)
  | step {w : LocWorld V P} (h : LocReach ord F field pop toCompute w) (p : ℕ) (v : View V P) (hv : F.view p = some v)
      (cuts : Py (Finset (V × V))) :
      LocReach ord F field pop toCompute (w.getitem ord F.data.graph (F.data.region field) pop v.assignment cuts p).2

/-- What is true of such worlds. -/
structure LocInv (F : Frame V P) (field : String) (toCompute : List String) (w : LocWorld V P) : Prop where
  dict : w.localitydict = none ∨ w.localitydict = some (localityDict F.data.graph.nodes (F.data.region field))
  shared : ∀ p r, w.cache.get? p = some r → r = w.scores
  keys : ∀ s, s ∈ (w.store w.scores).keys ↔ s ∈ toCompute
  unknown : ∀ s, s ∉ ["num_parts", "num_pieces", "naked_boundary", "num_split_localities", "shannon_entropy", "power_entropy",
    "symmetric_entropy"] → s ∈ toCompute → (w.store w.scores).get? s = some none

theorem scoreOf_unknown {ord : SetOrder P} {G : Graph V} {col : V → String} {ld : Dict V String} {a : Assignment V P}
    {splits : Dict P (Dict String ℕ)} {cuts : Py (Finset (V × V))} {s : String}
    (hs : s ∉ ["num_parts", "num_pieces", "naked_boundary", "num_split_localities", "shannon_entropy", "power_entropy",
    "symmetric_entropy"]) : scoreOf ord G col ld a splits cuts s = .ok none := by
  simp only [List.mem_cons, List.not_mem_nil, or_false, not_or] at hs
  obtain ⟨h1, h2, h3, h4, h5, h6, h7⟩ := hs
  simp [scoreOf, h1, h2, h3, h4, h5, h6, h7]

theorem parts_subset {F : Frame V P} (hF : FrameInv F) {p : ℕ} {v : View V P} (hv : F.view p = some v) :
    ∀ e ∈ v.assignment.parts.entries, e.2 ⊆ F.data.graph.nodes := by
  intro e he
  exact district_subset hF hv (Dict.get?_of_mem_entries (hF.coherent p v hv).parts_wf he)

/-- One call: the dictionary of localities is the one of the graph, the reference does not change, and a successful call has
run the score loop on the shared dictionary. -/
theorem call_spec {ord : SetOrder P} {F : Frame V P} (hF : FrameInv F) {field : String} {pop : V → ℚ} {toCompute : List String}
    {w : LocWorld V P} (hw : LocInv F field toCompute w) {p : ℕ} {v : View V P} (hv : F.view p = some v)
    (cuts : Py (Finset (V × V))) {res : Py ℕ} {w' : LocWorld V P}
    (h : w.call ord F.data.graph (F.data.region field) pop v.assignment cuts = (res, w')) :
    LocInv F field toCompute w' ∧ w'.scores = w.scores ∧ w'.cache = w.cache ∧
    ∀ r, res = .ok r → r = w.scores ∧
      scoreLoop (scoreOf ord F.data.graph (F.data.region field) (localityDict F.data.graph.nodes (F.data.region field))
        v.assignment (splitsOf (F.data.region field) v.assignment.parts) cuts) (w.store w.scores).keys (w.store w.scores) =
      (.ok (), w'.store w.scores) := by
  have hld : w.localitydict.getD (localityDict F.data.graph.nodes (F.data.region field)) =
      localityDict F.data.graph.nodes (F.data.region field) := by
    rcases hw.dict with h | h <;> rw [h] <;> rfl
  unfold LocWorld.call at h
  simp only [hld, localitySplits_ok (parts_subset hF hv)] at h
  generalize (if w.allowed.entries = [] then allowedPieces F.data.graph.nodes (F.data.region field) pop
    (localityDict F.data.graph.nodes (F.data.region field)).values.dedup v.assignment.parts.keys.length else .ok w.allowed) = al at h
  rcases al with e | al
  · simp only [Prod.mk.injEq] at h
    obtain ⟨rfl, rfl⟩ := h
    exact ⟨⟨.inr rfl, hw.shared, hw.keys, hw.unknown⟩, rfl, rfl, by intro r hr; cases hr⟩
  · simp only at h
    have hk := scoreLoop_keys (scoreOf ord F.data.graph (F.data.region field) (localityDict F.data.graph.nodes (F.data.region field))
        v.assignment (splitsOf (F.data.region field) v.assignment.parts) cuts) (w.store w.scores).keys (w.store w.scores)
        (fun s hs => hs)
    have hu := fun s hs => scoreLoop_other (scoreOf ord F.data.graph (F.data.region field) (localityDict F.data.graph.nodes (F.data.region field))
        v.assignment (splitsOf (F.data.region field) v.assignment.parts) cuts) (w.store w.scores).keys (w.store w.scores)
        (s := s) (.inr (scoreOf_unknown hs))
    rcases hl : scoreLoop (scoreOf ord F.data.graph (F.data.region field) (localityDict F.data.graph.nodes (F.data.region field))
        v.assignment (splitsOf (F.data.region field) v.assignment.parts) cuts) (w.store w.scores).keys (w.store w.scores) with ⟨e | u, d'⟩
    · rw [hl] at h hk hu
      simp only [Prod.mk.injEq] at h
      obtain ⟨rfl, rfl⟩ := h
      refine ⟨⟨.inr rfl, hw.shared, ?_, ?_⟩, rfl, rfl, by intro r hr; cases hr⟩
      · intro s
        simp only [if_true]
        rw [hk, hw.keys]
      · intro s hs hs'
        simp only [if_true]
        rw [hu s hs]
        exact hw.unknown s hs hs'
    · rw [hl] at h hk hu
      simp only [Prod.mk.injEq] at h
      obtain ⟨rfl, rfl⟩ := h
      refine ⟨⟨.inr rfl, hw.shared, ?_, ?_⟩, rfl, rfl, ?_⟩
      · intro s
        simp only [if_true]
        rw [hk, hw.keys]
      · intro s hs hs'
        simp only [if_true]
        rw [hu s hs]
        exact hw.unknown s hs hs'
      · intro r hr
        cases hr
        simp

theorem getitem_loc {ord : SetOrder P} {F : Frame V P} (hF : FrameInv F) {field : String} {pop : V → ℚ} {toCompute : List String}
    {w : LocWorld V P} (hw : LocInv F field toCompute w) {p : ℕ} {v : View V P} (hv : F.view p = some v)
    (cuts : Py (Finset (V × V))) {res : Py ℕ} {w' : LocWorld V P}
    (h : w.getitem ord F.data.graph (F.data.region field) pop v.assignment cuts p = (res, w')) :
    LocInv F field toCompute w' ∧ w'.scores = w.scores ∧
    ∀ r, res = .ok r → r = w.scores ∧ w'.cache.get? p = some r ∧ (w.cache.get? p = none →
      scoreLoop (scoreOf ord F.data.graph (F.data.region field) (localityDict F.data.graph.nodes (F.data.region field))
        v.assignment (splitsOf (F.data.region field) v.assignment.parts) cuts) (w.store w.scores).keys (w.store w.scores) =
      (.ok (), w'.store w.scores)) := by
  unfold LocWorld.getitem at h
  rcases hc : w.cache.get? p with _ | r0 <;> rw [hc] at h <;> simp only at h
  · rcases hcall : w.call ord F.data.graph (F.data.region field) pop v.assignment cuts with ⟨e | r, w1⟩ <;> rw [hcall] at h <;>
      simp only [Prod.mk.injEq] at h
    · obtain ⟨rfl, rfl⟩ := h
      obtain ⟨h1, h2, h3, h4⟩ := call_spec hF hw hv cuts hcall
      exact ⟨h1, h2, by intro r hr; cases hr⟩
    · obtain ⟨rfl, rfl⟩ := h
      obtain ⟨h1, h2, h3, h4⟩ := call_spec hF hw hv cuts hcall
      obtain ⟨g1, g2⟩ := h4 r rfl
      refine ⟨⟨h1.dict, ?_, h1.keys, h1.unknown⟩, h2, ?_⟩
      · intro p' r' hr
        simp only at hr
        by_cases hp : p' = p
        · subst hp
          rw [Dict.get?_set_self] at hr
          cases hr
          rw [g1]; exact h2.symm
        · rw [Dict.get?_set_ne _ _ hp] at hr
          exact h1.shared p' r' hr
      · intro r' hr'
        cases hr'
        exact ⟨g1, Dict.get?_set_self _ _ _, fun _ => g2⟩
  · simp only [Prod.mk.injEq] at h
    obtain ⟨rfl, rfl⟩ := h
    refine ⟨hw, rfl, ?_⟩
    intro r hr
    obtain rfl := Except.ok.inj hr
    exact ⟨hw.shared p _ hc, hc, by simp⟩

theorem LocReach.inv {ord : SetOrder P} {F : Frame V P} (hF : FrameInv F) {field : String} {pop : V → ℚ} {toCompute : List String}
    {w : LocWorld V P} (h : LocReach ord F field pop toCompute w) : LocInv F field toCompute w := by
  induction h with
  | init r =>
    have key : ∀ (l : List String) (d : Dict String (Option (Score P))), (∀ s, s ∈ d.keys → d.get? s = some none) →
        (∀ s, s ∈ (l.foldl (fun d s => d.set s none) d).keys ↔ s ∈ d.keys ∨ s ∈ l) ∧
        ∀ s, s ∈ (l.foldl (fun d s => d.set s none) d).keys → (l.foldl (fun d s => d.set s none) d).get? s = some none := by
      intro l
      induction l with
      | nil => intro d hd; exact ⟨by simp, hd⟩
      | cons x l ih =>
        intro d hd
        obtain ⟨h1, h2⟩ := ih (d.set x none) (by
          intro s hs
          by_cases hx : s = x
          · subst hx; exact Dict.get?_set_self _ _ _
          · rw [Dict.get?_set_ne _ _ hx]
            rcases Dict.mem_keys_set.1 hs with h | h
            · exact absurd h hx
            · exact hd s h)
        refine ⟨?_, h2⟩
        intro s
        rw [List.foldl_cons, h1, Dict.mem_keys_set, List.mem_cons]
        tauto
    obtain ⟨h1, h2⟩ := key toCompute Dict.empty (by simp)
    refine ⟨.inl rfl, (by intro p r h; simp [LocWorld.init] at h), ?_, ?_⟩
    · intro s; simpa [LocWorld.init] using h1 s
    · intro s _ hs
      exact h2 s ((h1 s).2 (.inr hs))
  | @step w h p v hv cuts ih =>
    exact (getitem_loc hF ih hv cuts rfl).1

section
variable {D : GraphData V} {ups : List Key} {ops : List (Op V P)}

open Classical in
/-- **C30 (scores, partial).** In every history and after any scorings by the same object: when a partition is scored for
the first time, its reported scores are `num_parts`: the number of pairs (locality, district) that share a node;
`num_split_localities`: the number of localities meeting at least two districts; `num_pieces`: the number of connected
components of the graph cut at both kinds of boundaries; `naked_boundary`: the number of edges between two districts inside
a locality; the entropies are those of the counters of the plan (see C90).  Missing: the scores do not stay (see `C30_reports_last`); `allowed_pieces` is computed but used by no score. -/
theorem C30_scores_partial (hD : D.graph.WF) (hops : ∀ op ∈ ops, op.WF) (ord : SetOrder P) (field : String) (pop : V → ℚ)
    (toCompute : List String) {w : LocWorld V P} (hw : LocReach ord (Heap.after D ups ops).frame field pop toCompute w)
    {p : ℕ} {v : View V P} (hv : (Heap.after D ups ops).frame.view p = some v) (hc : w.cache.get? p = none) {limit : ℕ}
    {r : ℕ} {w' : LocWorld V P}
    (h : w.getitem ord D.graph (D.region field) pop v.assignment
      ((Heap.after D ups ops).lookup p .cutEdges limit >>= Val.asEdgeSet) p = (.ok r, w')) :
    w'.cache.get? p = some r ∧
    ("num_parts" ∈ toCompute → (w'.store r).get? "num_parts" =
      some (some (.count (D.graph.nodes.image (fun x => (D.region field x, v.assignment.mapping.get? x))).card))) ∧
    ("num_split_localities" ∈ toCompute → (w'.store r).get? "num_split_localities" =
      some (some (.count ((D.graph.nodes.image (D.region field)).filter
        (fun c => ∃ x ∈ D.graph.nodes, ∃ y ∈ D.graph.nodes, D.region field x = c ∧ D.region field y = c ∧
          v.assignment.mapping.get? x ≠ v.assignment.mapping.get? y)).card))) ∧
    ("num_pieces" ∈ toCompute → ∃ n, (w'.store r).get? "num_pieces" = some (some (.count n)) ∧
      ∀ cs, IsComponents (pieceGraph D.graph (D.region field) v.assignment) D.graph.nodes cs → n = cs.length) ∧
    ("naked_boundary" ∈ toCompute → (w'.store r).get? "naked_boundary" =
      some (some (.count ((cutsOf D.graph v.assignment.mapping).filter (fun e => D.region field e.1 = D.region field e.2)).card))) ∧
    (∀ s ∈ toCompute, s ∈ ["shannon_entropy", "power_entropy", "symmetric_entropy"] →
      (w'.store r).get? s = some (some (.entropy s (splitsOf (D.region field) v.assignment.parts)))) ∧
    (∀ s ∈ toCompute, s ∉ ["num_parts", "num_pieces", "naked_boundary", "num_split_localities", "shannon_entropy",
      "power_entropy", "symmetric_entropy"] → (w'.store r).get? s = some none) := by
  obtain ⟨hi, hdat, -⟩ := after_inv (P := P) (ups := ups) hD hops
  have hcov := hi.frame.covers p v hv
  have hcoh := hi.frame.coherent p v hv
  have hwi := hw.inv hi.frame
  rw [← hdat] at h
  obtain ⟨h1, h2, h3⟩ := getitem_loc hi.frame hwi hv _ h
  obtain ⟨rfl, g2, g3⟩ := h3 r rfl
  have g3 := g3 hc
  rw [hdat] at hcov g3
  have hs := fun (s : String) (x : Score P) (hs : s ∈ toCompute) => scoreLoop_ok _ _ _ _ g3 (s := s) (x := x) ((hwi.keys s).2 hs)
  refine ⟨g2, ?_, ?_, ?_, ?_, ?_, ?_⟩
  · intro hm
    refine hs _ _ hm ?_
    simp only [scoreOf, if_true, numParts_ok hcoh hcov]
  · intro hm
    refine hs _ _ hm ?_
    simp only [scoreOf, reduceCtorEq, String.reduceEq, if_false, if_true, numSplitLocalities_ok hcoh hcov]
    congr 5
  · intro hm
    obtain ⟨n, k1, k2⟩ := numPieces_ok ord hD (col := D.region field) hcoh hcov
    refine ⟨n, hs _ _ hm ?_, k2⟩
    simp only [scoreOf, String.reduceEq, if_false, if_true, k1]
    rfl
  · intro hm
    rcases hx : (Heap.after D ups ops).lookup p .cutEdges limit with e | x
    · exfalso
      have hall := g3
      have hmem := (hwi.keys _).2 hm
      rw [hx] at g3
      have : ∀ (score : String → Py (Option (Score P))) (l : List String) (d d' : Dict String (Option (Score P))),
          scoreLoop score l d = (.ok (), d') → ∀ s ∈ l, ∃ o, score s = .ok o := by
        intro score l
        induction l with
        | nil => intro d d' _ s hs; cases hs
        | cons y l ih =>
          intro d d' h s hs
          unfold scoreLoop at h
          rcases hy : score y with e | (_ | z) <;> rw [hy] at h <;> simp only at h
          · cases h
          · rcases List.mem_cons.1 hs with rfl | hs
            · exact ⟨_, hy⟩
            · exact ih _ _ h s hs
          · rcases List.mem_cons.1 hs with rfl | hs
            · exact ⟨_, hy⟩
            · exact ih _ _ h s hs
      obtain ⟨o, ho⟩ := this _ _ _ _ g3 _ hmem
      simp [scoreOf, bind, Except.bind] at ho
    · have hxe := (lookup_correct hD hops hv hx).cutEdges
      refine hs _ _ hm ?_
      rw [hx, hxe]
      simp only [scoreOf, String.reduceEq, if_false, if_true, Val.asEdgeSet, bind, Except.bind, pure, Except.pure]
      congr 3
      unfold nakedBoundary
      rw [List.countP_eq_length_filter, ← List.toFinset_card_of_nodup ((nodup_iterE _).filter _)]
      congr 1
      ext e
      simp only [List.mem_toFinset, List.mem_filter, mem_iterE, decide_eq_true_eq, Finset.mem_filter]
      refine and_congr_right fun he => ?_
      rw [mem_cutsOf] at he
      obtain ⟨k1, k2⟩ := hD.mem_of_adj he.1.2
      rw [localityDict_get? k1, localityDict_get? k2]
      simp
  · intro s hm hse
    refine hs _ _ hm ?_
    simp only [List.mem_cons, List.not_mem_nil, or_false] at hse
    rcases hse with rfl | rfl | rfl <;> simp [scoreOf]
  · intro s hs' hns
    have := h1.unknown s hns hs'
    rw [h2] at this
    exact this

/-- **C30 is violated (stability), in general**: all partitions scored by one object report the same dictionary at any
time, so after scoring `q` every partition `p` scored before reports the scores of `q`. -/
theorem C30_reports_last (hD : D.graph.WF) (hops : ∀ op ∈ ops, op.WF) (ord : SetOrder P) (field : String) (pop : V → ℚ)
    (toCompute : List String) {w : LocWorld V P} (hw : LocReach ord (Heap.after D ups ops).frame field pop toCompute w)
    {p q r r' : ℕ} (hp : w.cache.get? p = some r) (hq : w.cache.get? q = some r') : w.store r = w.store r' := by
  obtain ⟨hi, hdat, -⟩ := after_inv (P := P) (ups := ups) hD hops
  have hwi := hw.inv hi.frame
  rw [hwi.shared p r hp, hwi.shared q r' hq]

end

/-! #### examples and counterexamples -/

/-- Plans on the path 0–1–2–3 with localities A = {0, 1} and B = {2, 3}: first the plan equal to the localities, then node 1
moved. -/
def exLocOps : List (Op ℕ ℕ) := [.create exDict, .flip 0 ⟨[(1, 2)]⟩]

/-- the plan of partition `p` of the example -/
def exLocPlan (p : ℕ) : Option (Assignment ℕ ℕ) := ((Heap.after exData exUps exLocOps).frame.view p).map (·.assignment)

/-- score partition `p` of the example -/
def exLocStep (w : LocWorld ℕ ℕ) (p : ℕ) : LocWorld ℕ ℕ := match exLocPlan p with
  | none => w
  | some a => (w.getitem natOrd exData.graph (exData.region "county") (fun _ => 1) a
      ((Heap.after exData exUps exLocOps).lookup p .cutEdges 9 >>= Val.asEdgeSet) p).2

/-- what partition `p` reports -/
def exLocRead (w : LocWorld ℕ ℕ) (p : ℕ) : Option (List (String × Option (Score ℕ))) := (w.cache.get? p).map (fun r => (w.store r).entries)

/-- **C30 is violated (stability)**: partition 0 splits no locality and reports so; after partition 1 is scored, partition 0
reports a split locality. -/
theorem C30_scores_change :
    exLocRead (exLocStep (LocWorld.init ["num_parts", "num_pieces", "naked_boundary", "num_split_localities"] 0) 0) 0 =
      some [("num_parts", some (.count 2)), ("num_pieces", some (.count 2)), ("naked_boundary", some (.count 0)),
        ("num_split_localities", some (.count 0))] ∧
    exLocRead (exLocStep (exLocStep (LocWorld.init ["num_parts", "num_pieces", "naked_boundary", "num_split_localities"] 0) 0) 1) 0 =
      some [("num_parts", some (.count 3)), ("num_pieces", some (.count 3)), ("naked_boundary", some (.count 1)),
        ("num_split_localities", some (.count 1))] := by
  constructor <;> decide +kernel

/-- With total population 0 every call raises `ZeroDivisionError`, whatever scores are asked for. -/
theorem C30_zero_population : ((LocWorld.init (V := ℕ) (P := ℕ) ["num_parts"] 0).call natOrd exData.graph (exData.region "county") (fun _ => 0)
    ⟨⟨[(1, {0, 1}), (2, {2, 3})]⟩, exDict⟩ (.ok ∅)).1 = .error .zeroDivision := by
  decide +kernel

/-- A pieces example: the first plan restricted to a disconnected locality. -/
example : numPieces natOrd exData.graph (fun v => if v = 1 then "B" else "A")
    (⟨⟨[(1, {0, 1}), (2, {2, 3})]⟩, exDict⟩ : Assignment ℕ ℕ) = .ok 3 := by
  decide +kernel

end GC

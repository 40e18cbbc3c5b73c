import Verif.Props.Entropy
import Mathlib.Analysis.Real.Sqrt

/-!
# C90: the symmetric entropy
-/

set_option linter.unusedSectionVars false
set_option autoImplicit false

namespace GC

variable {V P L K : Type} [LinearOrder V] [DecidableEq P] [DecidableEq L] [DecidableEq K]

/-- A dictionary of dictionaries with the values `f` for all pairs of labels. -/
structure IsTable (d : Dict K (Dict L ℚ)) (ks : Finset K) (ls : Finset L) (f : K → L → ℚ) : Prop where
  wf : d.WF
  keys : ∀ k, k ∈ d.keys ↔ k ∈ ks
  rows : ∀ k x, d.get? k = some x → x.WF ∧ (∀ l, l ∈ x.keys ↔ l ∈ ls) ∧ ∀ l ∈ ls, x.get? l = some (f k l)

theorem sum_values {A B : Type} [AddCommMonoid B] {d : Dict K A} (hd : d.WF) {ks : Finset K} (hk : ∀ k, k ∈ d.keys ↔ k ∈ ks) (g : A → B) (h : K → B)
    (hg : ∀ k x, d.get? k = some x → g x = h k) : (d.values.map g).sum = ∑ k ∈ ks, h k := by
  have : ks = d.keys.toFinset := by ext k; rw [List.mem_toFinset, hk]
  rw [this, List.sum_toFinset _ hd]
  unfold Dict.keys Dict.values
  rw [List.map_map, List.map_map]
  congr 1
  apply List.map_congr_left
  intro e he
  exact hg e.1 e.2 (Dict.get?_of_mem_entries hd he)

/-! ### building the table -/

theorem zeros_get? (locs : List L) (d : Dict L ℚ) (hd : d.WF) : (locs.foldl (fun d k => d.set k 0) d).WF ∧
    ∀ c, (locs.foldl (fun d k => d.set k 0) d).get? c = if c ∈ locs then some 0 else d.get? c := by
  induction locs generalizing d with
  | nil => exact ⟨hd, fun c => by simp⟩
  | cons x l ih =>
    obtain ⟨h1, h2⟩ := ih (d.set x 0) (hd.set _ _)
    refine ⟨h1, fun c => ?_⟩
    rw [List.foldl_cons, h2, Dict.get?_set]
    by_cases hc : c ∈ l
    · simp [hc]
    · by_cases hx : c = x
      · simp [hx]
      · simp [hc, hx]

theorem localityPop_fold {nodes : Finset V} {col : V → L} (pop : V → ℚ) (locs : List L) (hm : ∀ v ∈ nodes, col v ∈ locs) (l : List V)
    (hl : ∀ v ∈ l, v ∈ nodes) (d : Dict L ℚ) (hd : d.WF) (hk : ∀ c, c ∈ d.keys ↔ c ∈ locs) :
    ∃ d', l.foldlM (fun d v => do
      let c ← (localityDict nodes col).get v
      let x ← d.get c
      return d.set c (x + pop v)) d = (.ok d' : Py (Dict L ℚ)) ∧ d'.WF ∧ (∀ c, c ∈ d'.keys ↔ c ∈ locs) ∧
      ∀ c ∈ locs, ∃ x, d.get? c = some x ∧ d'.get? c = some (x + ((l.filter (fun v => col v = c)).map pop).sum) := by
  induction l generalizing d with
  | nil =>
    refine ⟨d, rfl, hd, hk, fun c hc => ?_⟩
    obtain ⟨x, hx⟩ := Dict.mem_keys_iff.1 ((hk c).2 hc)
    exact ⟨x, hx, by simpa using hx⟩
  | cons v l ih =>
    have hv := hl v List.mem_cons_self
    obtain ⟨x, hx⟩ := Dict.mem_keys_iff.1 ((hk (col v)).2 (hm v hv))
    have hk' : ∀ c, c ∈ (d.set (col v) (x + pop v)).keys ↔ c ∈ locs := by
      intro c
      rw [Dict.mem_keys_set, hk]
      constructor
      · rintro (rfl | h)
        · exact hm v hv
        · exact h
      · exact fun h => .inr h
    obtain ⟨d', h1, h2, h3, h4⟩ := ih (fun w hw => hl w (List.mem_cons_of_mem _ hw)) (d.set (col v) (x + pop v)) (hd.set _ _) hk'
    refine ⟨d', ?_, h2, h3, ?_⟩
    · rw [List.foldlM_cons, Dict.get_eq_ok_iff.2 (localityDict_get? hv)]
      simp only [bind, Except.bind]
      rw [Dict.get_eq_ok_iff.2 hx]
      exact h1
    · intro c hc
      obtain ⟨y, hy, h⟩ := h4 c hc
      rw [Dict.get?_set] at hy
      by_cases hcv : c = col v
      · subst hcv
        rw [if_pos rfl] at hy
        refine ⟨x, hx, ?_⟩
        rw [h, ← Option.some.inj hy, List.filter_cons_of_pos (by simp), List.map_cons, List.sum_cons, add_assoc]
      · rw [if_neg hcv] at hy
        refine ⟨y, hy, ?_⟩
        rw [h, List.filter_cons_of_neg (by simpa using fun h => hcv h.symm)]

/-- the population of the nodes of a locality that lie in a district -/
def popIn (nodes : Finset V) (col : V → L) (m : Dict V P) (pop : V → ℚ) (c : L) (k : P) : ℚ := ∑ v ∈ locNodesIn nodes col m c k, pop v

/-- the population of a locality -/
def locPop (nodes : Finset V) (col : V → L) (pop : V → ℚ) (c : L) : ℚ := ∑ v ∈ locNodes nodes col c, pop v

/-- the population of a district -/
def distPop (nodes : Finset V) (m : Dict V P) (pop : V → ℚ) (k : P) : ℚ := ∑ v ∈ nodes.filter (fun v => m.get? v = some k), pop v

theorem mapM_ok {A B : Type} {f : A → Py B} {l : List A} (h : ∀ x ∈ l, ∃ y, f x = .ok y) :
    ∃ l', l.mapM f = .ok l' ∧ List.Forall₂ (fun x y => f x = .ok y) l l' := by
  induction l with
  | nil => exact ⟨[], rfl, .nil⟩
  | cons x l ih =>
    obtain ⟨y, hy⟩ := h x List.mem_cons_self
    obtain ⟨l', h1, h2⟩ := ih (fun z hz => h z (List.mem_cons_of_mem _ hz))
    refine ⟨y :: l', ?_, .cons hy h2⟩
    rw [List.mapM_cons, hy, h1]; rfl

theorem districtPops_table {nodes : Finset V} {col : V → L} {a : Assignment V P} (hcoh : a.Coherent) (hcov : a.Covers nodes) {locs : List L}
    (hm : ∀ c, c ∈ locs ↔ c ∈ nodes.image col) (pop : V → ℚ) :
    ∃ d, districtPops locs (localityDict nodes col) pop a.parts = .ok d ∧
      IsTable d a.parts.keys.toFinset (nodes.image col) (fun k c => popIn nodes col a.mapping pop c k) := by
  have row : ∀ e ∈ a.parts.entries, ∃ d, localityPop locs (localityDict nodes col) pop e.2 = .ok d ∧ d.WF ∧
      (∀ c, c ∈ d.keys ↔ c ∈ nodes.image col) ∧ ∀ c ∈ nodes.image col, d.get? c = some (popIn nodes col a.mapping pop c e.1) := by
    intro e he
    obtain ⟨z1, z2⟩ := zeros_get? locs (Dict.empty : Dict L ℚ) Dict.wf_empty
    have hkeys : ∀ c, c ∈ (locs.foldl (fun d k => d.set k 0) (Dict.empty : Dict L ℚ)).keys ↔ c ∈ locs := by
      intro c
      rw [← Dict.get?_isSome_iff, z2]
      by_cases h : c ∈ locs <;> simp [h]
    have hpe := part_eq hcoh hcov he
    obtain ⟨d', h1, h2, h3, h4⟩ := localityPop_fold (nodes := nodes) (col := col) pop locs (fun v hv => (hm _).2 (Finset.mem_image_of_mem _ hv)) (iter e.2)
      (fun v hv => by rw [mem_iter, hpe] at hv; exact (Finset.mem_filter.1 hv).1) _ z1 hkeys
    refine ⟨d', h1, h2, fun c => (h3 c).trans (hm c), fun c hc => ?_⟩
    obtain ⟨x, hx, h⟩ := h4 c ((hm c).2 hc)
    rw [z2, if_pos ((hm c).2 hc)] at hx
    rw [h, ← Option.some.inj hx, zero_add, popIn, ← List.sum_toFinset _ ((nodup_iter _).filter _)]
    congr 2
    ext v
    rw [List.mem_toFinset, List.mem_filter, mem_iter, hpe]
    simp only [Finset.mem_filter, decide_eq_true_eq, locNodesIn]
    tauto
  obtain ⟨l', h1, h2⟩ := mapM_ok (f := fun e : P × Finset V => (do
      let d ← localityPop locs (localityDict nodes col) pop e.2
      return (e.1, d) : Py (P × Dict L ℚ))) (l := a.parts.entries) (by
    intro e he
    obtain ⟨d, hd, _⟩ := row e he
    exact ⟨(e.1, d), by rw [hd]; rfl⟩)
  have hall : ∀ y ∈ l', ∃ e ∈ a.parts.entries, y.1 = e.1 ∧ localityPop locs (localityDict nodes col) pop e.2 = .ok y.2 := by
    intro y hy
    obtain ⟨e, he, hey⟩ : ∃ e ∈ a.parts.entries, (do
      let d ← localityPop locs (localityDict nodes col) pop e.2
      return (e.1, d) : Py (P × Dict L ℚ)) = .ok y := by
      clear row h1
      generalize a.parts.entries = l at h2
      induction h2 with
      | nil => cases hy
      | cons hxy _ ih =>
        rcases List.mem_cons.1 hy with rfl | hy
        · exact ⟨_, List.mem_cons_self, hxy⟩
        · obtain ⟨e, he, h⟩ := ih hy
          exact ⟨e, List.mem_cons_of_mem _ he, h⟩
    obtain ⟨d, hd, _⟩ := row e he
    rw [hd] at hey
    have := Except.ok.inj hey
    exact ⟨e, he, by rw [← this], by rw [hd, ← this]⟩
  have hkeys : l'.map (·.1) = a.parts.keys := by
    unfold Dict.keys
    have hrow : ∀ e ∈ a.parts.entries, ∃ d, localityPop locs (localityDict nodes col) pop e.2 = .ok d := fun e he => by
      obtain ⟨d, hd, _⟩ := row e he; exact ⟨d, hd⟩
    clear row h1 hall
    generalize a.parts.entries = l at h2 hrow
    induction h2 with
    | nil => rfl
    | cons hxy _ ih =>
      obtain ⟨d, hd⟩ := hrow _ List.mem_cons_self
      rw [hd] at hxy
      rw [List.map_cons, List.map_cons, ih (fun e he => hrow e (List.mem_cons_of_mem _ he)), ← Except.ok.inj hxy]
  refine ⟨⟨l'⟩, ?_, ?_, ?_, ?_⟩
  · unfold districtPops
    rw [h1]; rfl
  · show (l'.map (·.1)).Nodup
    rw [hkeys]; exact hcoh.parts_wf
  · intro k
    show k ∈ l'.map (·.1) ↔ _
    rw [hkeys, List.mem_toFinset]
  · intro k x hx
    obtain ⟨e, he, h3, h4⟩ := hall (k, x) (Dict.mem_entries_of_get? hx)
    obtain ⟨d, h5, h6, h7, h8⟩ := row e he
    rw [h5] at h4
    have h4 := Except.ok.inj h4
    have h3 : k = e.1 := h3
    have h4 : d = x := h4
    subst h3 h4
    exact ⟨h6, h7, h8⟩

/-! ### inverting the table -/

theorem invert_inner (k : K) (l : List (L × ℚ)) (hl : (l.map (·.1)).Nodup) (inv : Dict L (Dict K ℚ)) (hw : inv.WF) :
    (l.foldl (fun inv e2 => inv.modifyD e2.1 Dict.empty (fun x => x.set k e2.2)) inv).WF ∧
    (∀ e ∈ l, (l.foldl (fun inv e2 => inv.modifyD e2.1 Dict.empty (fun x => x.set k e2.2)) inv).get? e.1 =
      some (((inv.get? e.1).getD Dict.empty).set k e.2)) ∧
    ∀ c ∉ l.map (·.1), (l.foldl (fun inv e2 => inv.modifyD e2.1 Dict.empty (fun x => x.set k e2.2)) inv).get? c = inv.get? c := by
  induction l generalizing inv with
  | nil => exact ⟨hw, fun e he => (List.not_mem_nil he).elim, fun c _ => rfl⟩
  | cons y l ih =>
    rw [List.map_cons, List.nodup_cons] at hl
    obtain ⟨h1, h2, h3⟩ := ih hl.2 (inv.modifyD y.1 Dict.empty (fun x => x.set k y.2)) (hw.modifyD _ _ _)
    refine ⟨h1, ?_, ?_⟩
    · intro e he
      rw [List.foldl_cons]
      rcases List.mem_cons.1 he with rfl | he
      · rw [h3 _ hl.1, Dict.get?_modifyD, if_pos rfl]
      · have hne : e.1 ≠ y.1 := fun h => hl.1 (h ▸ List.mem_map_of_mem he)
        rw [h2 e he, Dict.get?_modifyD, if_neg hne]
    · intro c hc
      rw [List.map_cons, List.mem_cons, not_or] at hc
      rw [List.foldl_cons, h3 c hc.2, Dict.get?_modifyD, if_neg hc.1]

theorem invert_outer {ls : Finset L} {f : K → L → ℚ} (l : List (K × Dict L ℚ))
    (hrow : ∀ e ∈ l, e.2.WF ∧ (∀ c, c ∈ e.2.keys ↔ c ∈ ls) ∧ ∀ c ∈ ls, e.2.get? c = some (f e.1 c)) (inv : Dict L (Dict K ℚ)) (S : Finset K)
    (hw : inv.WF) (hk1 : ∀ c ∈ inv.keys, c ∈ ls) (hk2 : S.Nonempty → ∀ c ∈ ls, c ∈ inv.keys)
    (hx : ∀ c ∈ ls, ((inv.get? c).getD Dict.empty).WF ∧ (∀ k, k ∈ ((inv.get? c).getD Dict.empty).keys ↔ k ∈ S) ∧
      ∀ k ∈ S, ((inv.get? c).getD Dict.empty).get? k = some (f k c)) :
    ∃ inv', l.foldl (fun inv e => e.2.entries.foldl (fun inv e2 => inv.modifyD e2.1 Dict.empty (fun x => x.set e.1 e2.2)) inv) inv = inv' ∧
      inv'.WF ∧ (∀ c ∈ inv'.keys, c ∈ ls) ∧ ((S ∪ (l.map (·.1)).toFinset).Nonempty → ∀ c ∈ ls, c ∈ inv'.keys) ∧
      ∀ c ∈ ls, ((inv'.get? c).getD Dict.empty).WF ∧ (∀ k, k ∈ ((inv'.get? c).getD Dict.empty).keys ↔ k ∈ S ∪ (l.map (·.1)).toFinset) ∧
        ∀ k ∈ S ∪ (l.map (·.1)).toFinset, ((inv'.get? c).getD Dict.empty).get? k = some (f k c) := by
  induction l generalizing inv S with
  | nil => exact ⟨inv, rfl, hw, hk1, by simpa using hk2, by simpa using hx⟩
  | cons e l ih =>
    obtain ⟨r1, r2, r3⟩ := hrow e List.mem_cons_self
    obtain ⟨i1, i2, i3⟩ := invert_inner e.1 e.2.entries r1 inv hw
    obtain ⟨inv1, hinv1⟩ : ∃ inv1, e.2.entries.foldl (fun inv e2 => inv.modifyD e2.1 Dict.empty (fun x => x.set e.1 e2.2)) inv = inv1 := ⟨_, rfl⟩
    rw [hinv1] at i1 i2 i3
    have hget : ∀ c ∈ ls, inv1.get? c = some (((inv.get? c).getD Dict.empty).set e.1 (f e.1 c)) := by
      intro c hc
      exact i2 (c, f e.1 c) (Dict.mem_entries_of_get? (r3 c hc))
    have h := ih (fun e' he' => hrow e' (List.mem_cons_of_mem _ he')) inv1 (insert e.1 S) i1 ?_ ?_ ?_
    · obtain ⟨inv', g1, g2, g3, g4, g5⟩ := h
      have hset : insert e.1 S ∪ (l.map (·.1)).toFinset = S ∪ ((e :: l).map (·.1)).toFinset := by
        ext k; simp only [List.map_cons, List.toFinset_cons, Finset.mem_union, Finset.mem_insert]; tauto
      rw [hset] at g4 g5
      exact ⟨inv', by rw [List.foldl_cons, hinv1]; exact g1, g2, g3, g4, g5⟩
    · intro c hc
      by_contra hcon
      have hc' : c ∉ e.2.entries.map (·.1) := fun h => hcon ((r2 c).1 h)
      rw [← Dict.get?_isSome_iff, i3 c hc', Dict.get?_isSome_iff] at hc
      exact hcon (hk1 c hc)
    · intro _ c hc
      exact Dict.mem_keys_iff.2 ⟨_, hget c hc⟩
    · intro c hc
      rw [hget c hc, Option.getD_some]
      obtain ⟨x1, x2, x3⟩ := hx c hc
      refine ⟨x1.set _ _, fun k => ?_, fun k hk => ?_⟩
      · rw [Dict.mem_keys_set, x2, Finset.mem_insert]
      · rw [Dict.get?_set]
        by_cases hke : k = e.1
        · rw [if_pos hke, hke]
        · rw [if_neg hke]
          exact x3 k ((Finset.mem_insert.1 hk).resolve_left hke)

theorem invertPops_table {d : Dict K (Dict L ℚ)} {ks : Finset K} {ls : Finset L} {f : K → L → ℚ} (h : IsTable d ks ls f) (hne : ls.Nonempty → ks.Nonempty) :
    IsTable (invertPops d) ls ks (fun l k => f k l) := by
  obtain ⟨inv', h1, h2, h3, h4, h5⟩ := invert_outer (ls := ls) (f := f) d.entries
    (fun e he => h.rows e.1 e.2 (Dict.get?_of_mem_entries h.wf he)) Dict.empty ∅ Dict.wf_empty (by simp) (by simp) (by
      intro c _
      simp only [Dict.get?_empty, Option.getD_none]
      exact ⟨Dict.wf_empty, by simp, by simp⟩)
  have hks : (∅ : Finset K) ∪ (d.entries.map (·.1)).toFinset = ks := by
    rw [Finset.empty_union]
    ext k
    rw [List.mem_toFinset]
    exact h.keys k
  rw [hks] at h4 h5
  have hinv : invertPops d = inv' := h1
  rw [hinv]
  refine ⟨h2, fun l => ⟨h3 l, fun hl => h4 (hne ⟨l, hl⟩) l hl⟩, fun l x hx => ?_⟩
  have hl := h3 l (Dict.mem_keys_iff.2 ⟨x, hx⟩)
  have := h5 l hl
  rw [hx, Option.getD_some] at this
  exact this

/-! ### the two loops -/

theorem foldl_add_sum (l : List ℚ) : l.foldl (· + ·) 0 = l.sum := by
  rw [List.sum_eq_foldl]

theorem row_sum {d : Dict K (Dict L ℚ)} {ks : Finset K} {ls : Finset L} {f : K → L → ℚ} (h : IsTable d ks ls f) {k : K} {x : Dict L ℚ}
    (hx : d.get? k = some x) : x.values.sum = ∑ l ∈ ls, f k l := by
  obtain ⟨h1, h2, h3⟩ := h.rows k x hx
  have := sum_values h1 h2 (fun q : ℚ => q) (fun l => f k l) (by
    intro l q hq
    rw [h3 l ((h2 l).1 (Dict.mem_keys_iff.2 ⟨q, hq⟩))] at hq
    exact (Option.some.inj hq).symm)
  simpa using this

theorem splitScore_ok {d : Dict K (Dict L ℚ)} {ks : Finset K} {ls : Finset L} {f : K → L → ℚ} (h : IsTable d ks ls f)
    (h0 : ∀ k ∈ ks, ∀ l ∈ ls, 0 ≤ f k l) (hpos : ∀ k ∈ ks, 0 < ∑ l ∈ ls, f k l) (score : ℝ) :
    splitScore score d = .ok (score + ∑ k ∈ ks, ((∑ l ∈ ls, f k l : ℚ) : ℝ) * ∑ l ∈ ls, Real.sqrt ((f k l / ∑ l ∈ ls, f k l : ℚ) : ℝ)) := by
  unfold splitScore
  rw [foldlM_addA (fun pops : Dict L ℚ => (pops.values.sum : ℝ) * (pops.values.map (fun x => Real.sqrt ((x / pops.values.sum : ℚ) : ℝ))).sum),
    sum_values h.wf h.keys _ (fun k => ((∑ l ∈ ls, f k l : ℚ) : ℝ) * ∑ l ∈ ls, Real.sqrt ((f k l / ∑ l ∈ ls, f k l : ℚ) : ℝ))]
  · intro k x hx
    obtain ⟨h1, h2, h3⟩ := h.rows k x hx
    rw [row_sum h hx]
    congr 1
    refine sum_values h1 h2 _ _ fun l q hq => ?_
    rw [h3 l ((h2 l).1 (Dict.mem_keys_iff.2 ⟨q, hq⟩))] at hq
    rw [← Option.some.inj hq]
  · intro x hx n
    obtain ⟨k, hk⟩ := (Dict.mem_values_iff h.wf).1 hx
    obtain ⟨h1, h2, h3⟩ := h.rows k x hk
    have hks := (h.keys k).1 (Dict.mem_keys_iff.2 ⟨x, hk⟩)
    simp only [foldl_add_sum]
    have hp : 0 < x.values.sum := by rw [row_sum h hk]; exact hpos k hks
    rw [foldlM_addA (fun q : ℚ => Real.sqrt ((q / x.values.sum : ℚ) : ℝ)), zero_add]
    · rfl
    · intro q hq m
      obtain ⟨l, hl⟩ := (Dict.mem_values_iff h1).1 hq
      have hls := (h2 l).1 (Dict.mem_keys_iff.2 ⟨q, hl⟩)
      have hq0 : 0 ≤ q := by
        rw [h3 l hls] at hl
        rw [← Option.some.inj hl]
        exact h0 k hks l hls
      unfold sqrtShare
      rw [if_neg hp.ne', if_neg (not_lt.2 (div_nonneg hq0 hp.le))]
      rfl

theorem splitScore_zero {d : Dict K (Dict L ℚ)} {ks : Finset K} {ls : Finset L} {f : K → L → ℚ} (h : IsTable d ks ls f)
    (h0 : ∀ k ∈ ks, ∀ l ∈ ls, 0 ≤ f k l) (hls : ls.Nonempty) (hz : ∃ k ∈ ks, ∑ l ∈ ls, f k l = 0) (score : ℝ) :
    splitScore score d = .error .zeroDivision := by
  unfold splitScore
  refine foldlM_raises ?_ ?_ score
  · intro x hx n
    obtain ⟨k, hk⟩ := (Dict.mem_values_iff h.wf).1 hx
    obtain ⟨h1, h2, h3⟩ := h.rows k x hk
    have hks := (h.keys k).1 (Dict.mem_keys_iff.2 ⟨x, hk⟩)
    simp only [foldl_add_sum]
    have hnn : 0 ≤ x.values.sum := by rw [row_sum h hk]; exact Finset.sum_nonneg (h0 k hks)
    rcases foldlM_ok_or (err := .zeroDivision) (f := fun (f : ℝ) (q : ℚ) => (do
        let r ← sqrtShare q x.values.sum
        return f + r : Py ℝ)) (l := x.values) (by
      intro q hq m
      obtain ⟨l, hl⟩ := (Dict.mem_values_iff h1).1 hq
      have hlm := (h2 l).1 (Dict.mem_keys_iff.2 ⟨q, hl⟩)
      have hq0 : 0 ≤ q := by
        rw [h3 l hlm] at hl
        rw [← Option.some.inj hl]
        exact h0 k hks l hlm
      by_cases hT : x.values.sum = 0
      · right; simp only [sqrtShare, if_pos hT]; rfl
      · left
        simp only [sqrtShare]
        rw [if_neg hT, if_neg (not_lt.2 (div_nonneg hq0 hnn))]
        exact ⟨_, rfl⟩) 0 with ⟨y, hy⟩ | hy
    · left; rw [hy]; exact ⟨_, rfl⟩
    · right; rw [hy]; rfl
  · obtain ⟨k, hk, hz⟩ := hz
    obtain ⟨x, hx⟩ := Dict.mem_keys_iff.1 ((h.keys k).2 hk)
    obtain ⟨h1, h2, h3⟩ := h.rows k x hx
    refine ⟨x, (Dict.mem_values_iff h.wf).2 ⟨k, hx⟩, fun n => ?_⟩
    simp only [foldl_add_sum]
    rw [foldlM_raises (err := .zeroDivision)]
    · rfl
    · intro q _ m
      right
      rw [sqrtShare, if_pos (by rw [row_sum h hx, hz])]; rfl
    · obtain ⟨l, hl⟩ := hls
      refine ⟨f k l, (Dict.mem_values_iff h1).2 ⟨l, h3 l hl⟩, fun m => ?_⟩
      rw [sqrtShare, if_pos (by rw [row_sum h hx, hz])]; rfl

/-! ### the score -/

section
variable {nodes : Finset V} {a : Assignment V P} {col : V → L} {locs : List L} {pop : V → ℚ}

theorem sum_popIn_loc (hcoh : a.Coherent) (hcov : a.Covers nodes) (c : L) :
    ∑ k ∈ a.parts.keys.toFinset, popIn nodes col a.mapping pop c k = locPop nodes col pop c := by
  unfold popIn locPop
  rw [← Finset.sum_biUnion]
  · congr 1
    ext v
    simp only [Finset.mem_biUnion, List.mem_toFinset, locNodesIn, locNodes, Finset.mem_filter]
    constructor
    · rintro ⟨k, _, h1, h2, _⟩; exact ⟨h1, h2⟩
    · rintro ⟨h1, h2⟩
      obtain ⟨k, hk⟩ := Dict.mem_keys_iff.1 ((hcov v).2 h1)
      exact ⟨k, hcoh.complete v k hk, h1, h2, hk⟩
  · intro k _ k' _ hne
    rw [Function.onFun, Finset.disjoint_left]
    intro v h1 h2
    simp only [locNodesIn, Finset.mem_filter] at h1 h2
    exact hne (Option.some.inj (h1.2.2.symm.trans h2.2.2))

theorem sum_popIn_dist (k : P) : ∑ c ∈ nodes.image col, popIn nodes col a.mapping pop c k = distPop nodes a.mapping pop k := by
  unfold popIn distPop
  rw [← Finset.sum_biUnion]
  · congr 1
    ext v
    simp only [Finset.mem_biUnion, Finset.mem_image, locNodesIn, Finset.mem_filter]
    constructor
    · rintro ⟨c, _, h1, _, h3⟩; exact ⟨h1, h3⟩
    · rintro ⟨h1, h2⟩; exact ⟨col v, ⟨v, h1, rfl⟩, h1, rfl, h2⟩
  · intro c _ c' _ hne
    rw [Function.onFun, Finset.disjoint_left]
    intro v h1 h2
    simp only [locNodesIn, Finset.mem_filter] at h1 h2
    exact hne (h1.2.1.symm.trans h2.2.1)

theorem popIn_nonneg (hpop : ∀ v ∈ nodes, 0 ≤ pop v) (c : L) (k : P) : 0 ≤ popIn nodes col a.mapping pop c k :=
  Finset.sum_nonneg fun v hv => hpop v (Finset.mem_filter.1 hv).1

theorem popIn_pos (hpop : ∀ v ∈ nodes, 0 ≤ pop v) {c : L} {k : P} :
    0 < popIn nodes col a.mapping pop c k ↔ ∃ v ∈ nodes, 0 < pop v ∧ col v = c ∧ a.mapping.get? v = some k := by
  unfold popIn
  rw [Finset.sum_pos_iff_of_nonneg (s := locNodesIn nodes col a.mapping c k) (fun v hv => hpop v (Finset.mem_filter.1 hv).1)]
  simp only [locNodesIn, Finset.mem_filter]
  constructor
  · rintro ⟨v, ⟨h1, h2, h3⟩, h4⟩; exact ⟨v, h1, h4, h2, h3⟩
  · rintro ⟨v, h1, h4, h2, h3⟩; exact ⟨v, ⟨h1, h2, h3⟩, h4⟩

theorem mul_sqrt_share {x t : ℚ} (hx : 0 ≤ x) (hxt : x ≤ t) (ht : 0 < t) :
    (x : ℝ) ≤ (t : ℝ) * Real.sqrt ((x / t : ℚ) : ℝ) ∧ ((x : ℝ) = (t : ℝ) * Real.sqrt ((x / t : ℚ) : ℝ) ↔ x = 0 ∨ x = t) := by
  have hT : (0 : ℝ) < t := by exact_mod_cast ht
  obtain ⟨y, hy⟩ : ∃ y : ℝ, y = ((x / t : ℚ) : ℝ) := ⟨_, rfl⟩
  have hxy : (x : ℝ) = t * y := by rw [hy]; push_cast; field_simp
  have hy0 : 0 ≤ y := by rw [hy]; exact_mod_cast div_nonneg hx ht.le
  have hy1 : y ≤ 1 := by rw [hy]; exact_mod_cast (div_le_one ht).2 hxt
  have hsq := Real.mul_self_sqrt hy0
  have hs0 := Real.sqrt_nonneg y
  have hs1 : Real.sqrt y ≤ 1 := by rw [Real.sqrt_le_one]; exact hy1
  rw [← hy]
  constructor
  · rw [hxy]
    refine mul_le_mul_of_nonneg_left ?_ hT.le
    nlinarith
  · rw [hxy, mul_right_inj' hT.ne']
    constructor
    · intro h
      have h2 : Real.sqrt y = 0 ∨ Real.sqrt y = 1 := by
        have : Real.sqrt y * (Real.sqrt y - 1) = 0 := by linarith
        rcases mul_eq_zero.1 this with h | h
        · exact .inl h
        · exact .inr (by linarith)
      rcases h2 with h2 | h2
      · left
        rw [h2] at h
        rw [h, mul_zero] at hxy
        exact_mod_cast hxy
      · right
        rw [h2] at h
        rw [h, mul_one] at hxy
        exact_mod_cast hxy
    · rintro (rfl | rfl)
      · have : y = 0 := by rw [hy]; simp
        rw [this, Real.sqrt_zero]
      · have : y = 1 := by rw [hy, div_self ht.ne']; simp
        rw [this, Real.sqrt_one]

/-- **C90 (symmetric entropy).** When no population is negative and every district and every locality has some, the symmetric entropy is
`Σ_k T_k Σ_c sqrt(P_ck / T_k) + Σ_c T_c Σ_k sqrt(P_ck / T_c)`, where `P_ck` is the population of locality `c` in district `k` and `T` are the
populations of districts and of localities.  It is at least twice the total population, with equality exactly when, among the nodes with population,
districts and localities coincide.  Localities may be numbers.  Missing: districts or localities without population, see
`C90_symmetric_violation`. -/
theorem C90_symmetric_partial (hcoh : a.Coherent) (hcov : a.Covers nodes) (hm : ∀ c, c ∈ locs ↔ c ∈ nodes.image col) (hpop : ∀ v ∈ nodes, 0 ≤ pop v)
    (hdist : ∀ k ∈ a.parts.keys, 0 < distPop nodes a.mapping pop k) (hloc : ∀ v ∈ nodes, 0 < locPop nodes col pop (col v)) :
    ∃ e, symmetricEntropy locs (localityDict nodes col) pop a.parts = .ok e ∧
      e = ∑ k ∈ a.parts.keys.toFinset, (distPop nodes a.mapping pop k : ℝ) *
          ∑ c ∈ nodes.image col, Real.sqrt ((popIn nodes col a.mapping pop c k / distPop nodes a.mapping pop k : ℚ) : ℝ) +
        ∑ c ∈ nodes.image col, (locPop nodes col pop c : ℝ) *
          ∑ k ∈ a.parts.keys.toFinset, Real.sqrt ((popIn nodes col a.mapping pop c k / locPop nodes col pop c : ℚ) : ℝ) ∧
      2 * ((∑ v ∈ nodes, pop v : ℚ) : ℝ) ≤ e ∧
      (e = 2 * ((∑ v ∈ nodes, pop v : ℚ) : ℝ) ↔
        ∀ x ∈ nodes, ∀ y ∈ nodes, 0 < pop x → 0 < pop y → (col x = col y ↔ a.mapping.get? x = a.mapping.get? y)) := by
  obtain ⟨d, hd, htab⟩ := districtPops_table hcoh hcov hm pop
  have h0 : ∀ c k, 0 ≤ popIn nodes col a.mapping pop c k := fun c k => popIn_nonneg hpop c k
  have htab' := invertPops_table htab (by
    rintro ⟨c, hc⟩
    obtain ⟨v, hv, _⟩ := Finset.mem_image.1 hc
    obtain ⟨k, hk⟩ := Dict.mem_keys_iff.1 ((hcov v).2 hv)
    exact ⟨k, List.mem_toFinset.2 (hcoh.complete v k hk)⟩)
  have hdist' : ∀ k ∈ a.parts.keys.toFinset, 0 < distPop nodes a.mapping pop k := fun k hk => hdist k (List.mem_toFinset.1 hk)
  have hloc' : ∀ c ∈ nodes.image col, 0 < locPop nodes col pop c := by
    intro c hc
    obtain ⟨v, hv, rfl⟩ := Finset.mem_image.1 hc
    exact hloc v hv
  have e1 := splitScore_ok htab (fun k _ c _ => h0 c k) (fun k hk => by rw [sum_popIn_dist]; exact hdist' k hk) 0
  have e2 := fun s => splitScore_ok htab' (fun c _ k _ => h0 c k) (fun c hc => by rw [sum_popIn_loc hcoh hcov]; exact hloc' c hc) s
  simp only [sum_popIn_dist] at e1
  simp only [sum_popIn_loc hcoh hcov] at e2
  -- each summand is at least the population it stands for
  have b1 : ∀ k ∈ a.parts.keys.toFinset, ∀ c ∈ nodes.image col, popIn nodes col a.mapping pop c k ≤ distPop nodes a.mapping pop k := by
    intro k _ c hc
    rw [← sum_popIn_dist (col := col)]
    exact Finset.single_le_sum (f := fun c => popIn nodes col a.mapping pop c k) (fun c _ => h0 c k) hc
  have b2 : ∀ c ∈ nodes.image col, ∀ k ∈ a.parts.keys.toFinset, popIn nodes col a.mapping pop c k ≤ locPop nodes col pop c := by
    intro c _ k hk
    rw [← sum_popIn_loc hcoh hcov]
    exact Finset.single_le_sum (f := fun k => popIn nodes col a.mapping pop c k) (fun k _ => h0 c k) hk
  have tot : ∑ c ∈ nodes.image col, locPop nodes col pop c = ∑ v ∈ nodes, pop v := by
    unfold locPop locNodes
    exact Finset.sum_fiberwise_of_maps_to (fun v hv => Finset.mem_image_of_mem _ hv) pop
  have s2 : ∑ c ∈ nodes.image col, ∑ k ∈ a.parts.keys.toFinset, (popIn nodes col a.mapping pop c k : ℝ) = ((∑ v ∈ nodes, pop v : ℚ) : ℝ) := by
    rw [← tot, Rat.cast_sum]
    refine Finset.sum_congr rfl fun c _ => ?_
    rw [← sum_popIn_loc hcoh hcov, Rat.cast_sum]
  have s1 : ∑ k ∈ a.parts.keys.toFinset, ∑ c ∈ nodes.image col, (popIn nodes col a.mapping pop c k : ℝ) = ((∑ v ∈ nodes, pop v : ℚ) : ℝ) := by
    rw [Finset.sum_comm, s2]
  obtain ⟨A, hA⟩ : ∃ A : ℝ, A = ∑ k ∈ a.parts.keys.toFinset, (distPop nodes a.mapping pop k : ℝ) *
      ∑ c ∈ nodes.image col, Real.sqrt ((popIn nodes col a.mapping pop c k / distPop nodes a.mapping pop k : ℚ) : ℝ) := ⟨_, rfl⟩
  obtain ⟨B, hB⟩ : ∃ B : ℝ, B = ∑ c ∈ nodes.image col, (locPop nodes col pop c : ℝ) *
      ∑ k ∈ a.parts.keys.toFinset, Real.sqrt ((popIn nodes col a.mapping pop c k / locPop nodes col pop c : ℚ) : ℝ) := ⟨_, rfl⟩
  have mA := hA
  have mB := hB
  simp only [Finset.mul_sum] at mA mB
  have leA : ((∑ v ∈ nodes, pop v : ℚ) : ℝ) ≤ A := by
    rw [mA, ← s1]
    exact Finset.sum_le_sum fun k hk => Finset.sum_le_sum fun c hc => (mul_sqrt_share (h0 c k) (b1 k hk c hc) (hdist' k hk)).1
  have leB : ((∑ v ∈ nodes, pop v : ℚ) : ℝ) ≤ B := by
    rw [mB, ← s2]
    exact Finset.sum_le_sum fun c hc => Finset.sum_le_sum fun k hk => (mul_sqrt_share (h0 c k) (b2 c hc k hk) (hloc' c hc)).1
  have eqA : ((∑ v ∈ nodes, pop v : ℚ) : ℝ) = A ↔ ∀ k ∈ a.parts.keys.toFinset, ∀ c ∈ nodes.image col,
      popIn nodes col a.mapping pop c k = 0 ∨ popIn nodes col a.mapping pop c k = distPop nodes a.mapping pop k := by
    rw [mA, ← s1, Finset.sum_eq_sum_iff_of_le (fun k hk => Finset.sum_le_sum fun c hc => (mul_sqrt_share (h0 c k) (b1 k hk c hc) (hdist' k hk)).1)]
    refine forall₂_congr fun k hk => ?_
    rw [Finset.sum_eq_sum_iff_of_le (fun c hc => (mul_sqrt_share (h0 c k) (b1 k hk c hc) (hdist' k hk)).1)]
    exact forall₂_congr fun c hc => (mul_sqrt_share (h0 c k) (b1 k hk c hc) (hdist' k hk)).2
  have eqB : ((∑ v ∈ nodes, pop v : ℚ) : ℝ) = B ↔ ∀ c ∈ nodes.image col, ∀ k ∈ a.parts.keys.toFinset,
      popIn nodes col a.mapping pop c k = 0 ∨ popIn nodes col a.mapping pop c k = locPop nodes col pop c := by
    rw [mB, ← s2, Finset.sum_eq_sum_iff_of_le (fun c hc => Finset.sum_le_sum fun k hk => (mul_sqrt_share (h0 c k) (b2 c hc k hk) (hloc' c hc)).1)]
    refine forall₂_congr fun c hc => ?_
    rw [Finset.sum_eq_sum_iff_of_le (fun k hk => (mul_sqrt_share (h0 c k) (b2 c hc k hk) (hloc' c hc)).1)]
    exact forall₂_congr fun k hk => (mul_sqrt_share (h0 c k) (b2 c hc k hk) (hloc' c hc)).2
  refine ⟨A + B, ?_, by rw [hA, hB], by linarith, ?_⟩
  · unfold symmetricEntropy
    rw [hd]
    simp only [bind, Except.bind]
    rw [e1]
    simp only
    rw [e2, zero_add, hA, hB]
  · have : A + B = 2 * ((∑ v ∈ nodes, pop v : ℚ) : ℝ) ↔ ((∑ v ∈ nodes, pop v : ℚ) : ℝ) = A ∧ ((∑ v ∈ nodes, pop v : ℚ) : ℝ) = B :=
      ⟨fun h => ⟨by linarith, by linarith⟩, fun h => by linarith [h.1, h.2]⟩
    rw [this, eqA, eqB]
    have other : ∀ {s : Finset L} {g : L → ℚ} {c c' : L}, (∀ x, 0 ≤ g x) → c ∈ s → c' ∈ s → g c = ∑ x ∈ s, g x → 0 < g c' → c = c' := by
      intro s g c c' hg hc hc' heq hpos
      by_contra hne
      have := Finset.add_le_sum (f := g) (fun x _ => hg x) hc hc' hne
      linarith
    have other' : ∀ {s : Finset P} {g : P → ℚ} {c c' : P}, (∀ x, 0 ≤ g x) → c ∈ s → c' ∈ s → g c = ∑ x ∈ s, g x → 0 < g c' → c = c' := by
      intro s g c c' hg hc hc' heq hpos
      by_contra hne
      have := Finset.add_le_sum (f := g) (fun x _ => hg x) hc hc' hne
      linarith
    constructor
    · rintro ⟨hD, hL⟩ x hx y hy px py
      obtain ⟨k, hk⟩ := Dict.mem_keys_iff.1 ((hcov x).2 hx)
      obtain ⟨k', hk'⟩ := Dict.mem_keys_iff.1 ((hcov y).2 hy)
      have mk := List.mem_toFinset.2 (hcoh.complete x k hk)
      have mk' := List.mem_toFinset.2 (hcoh.complete y k' hk')
      have mx := Finset.mem_image_of_mem col hx
      have my := Finset.mem_image_of_mem col hy
      have qx : 0 < popIn nodes col a.mapping pop (col x) k := (popIn_pos hpop).2 ⟨x, hx, px, rfl, hk⟩
      have qy : 0 < popIn nodes col a.mapping pop (col y) k' := (popIn_pos hpop).2 ⟨y, hy, py, rfl, hk'⟩
      constructor
      · intro hc
        have h1 := (hL _ mx k mk).resolve_left qx.ne'
        rw [← sum_popIn_loc hcoh hcov] at h1
        rw [← hc] at qy
        rw [hk, hk', other' (g := fun k => popIn nodes col a.mapping pop (col x) k) (fun k => h0 _ k) mk mk' h1 qy]
      · intro hc
        rw [hk, hk'] at hc
        obtain rfl := Option.some.inj hc
        have h1 := (hD k mk _ mx).resolve_left qx.ne'
        rw [← sum_popIn_dist (col := col)] at h1
        exact other (g := fun c => popIn nodes col a.mapping pop c k) (fun c => h0 c _) mx my h1 qy
    · intro h
      constructor
      · intro k hk c hc
        by_cases hz : popIn nodes col a.mapping pop c k = 0
        · exact .inl hz
        · right
          obtain ⟨x, hx, px, cx, kx⟩ := (popIn_pos hpop).1 (lt_of_le_of_ne (h0 c k) (Ne.symm hz))
          rw [← sum_popIn_dist (col := col), Finset.sum_eq_single_of_mem c hc]
          intro c' _ hne
          by_contra hcon
          obtain ⟨y, hy, py, cy, ky⟩ := (popIn_pos hpop).1 (lt_of_le_of_ne (h0 c' k) (Ne.symm hcon))
          exact hne (cy.symm.trans (((h x hx y hy px py).2 (kx.trans ky.symm)).symm.trans cx))
      · intro c hc k hk
        by_cases hz : popIn nodes col a.mapping pop c k = 0
        · exact .inl hz
        · right
          obtain ⟨x, hx, px, cx, kx⟩ := (popIn_pos hpop).1 (lt_of_le_of_ne (h0 c k) (Ne.symm hz))
          rw [← sum_popIn_loc hcoh hcov, Finset.sum_eq_single_of_mem k hk]
          intro k' _ hne
          by_contra hcon
          obtain ⟨y, hy, py, cy, ky⟩ := (popIn_pos hpop).1 (lt_of_le_of_ne (h0 c k') (Ne.symm hcon))
          have := (h x hx y hy px py).1 (cx.trans cy.symm)
          rw [kx, ky] at this
          exact hne (Option.some.inj this).symm

/-- **C90 (symmetric entropy, exceptional case)**: a district or a locality without population makes the score raise `ZeroDivisionError`. -/
theorem C90_symmetric_violation (hcoh : a.Coherent) (hcov : a.Covers nodes) (hm : ∀ c, c ∈ locs ↔ c ∈ nodes.image col)
    (hpop : ∀ v ∈ nodes, 0 ≤ pop v) (hne : nodes.Nonempty)
    (hz : (∃ k ∈ a.parts.keys, distPop nodes a.mapping pop k = 0) ∨ ∃ v ∈ nodes, locPop nodes col pop (col v) = 0) :
    symmetricEntropy locs (localityDict nodes col) pop a.parts = .error .zeroDivision := by
  obtain ⟨d, hd, htab⟩ := districtPops_table hcoh hcov hm pop
  have h0 : ∀ c k, 0 ≤ popIn nodes col a.mapping pop c k := fun c k => popIn_nonneg hpop c k
  obtain ⟨v0, hv0⟩ := hne
  obtain ⟨k0, hk0⟩ := Dict.mem_keys_iff.1 ((hcov v0).2 hv0)
  have hks : a.parts.keys.toFinset.Nonempty := ⟨k0, List.mem_toFinset.2 (hcoh.complete v0 k0 hk0)⟩
  have hls : (nodes.image col).Nonempty := ⟨col v0, Finset.mem_image_of_mem _ hv0⟩
  have htab' := invertPops_table htab (fun _ => hks)
  unfold symmetricEntropy
  rw [hd]
  simp only [bind, Except.bind]
  by_cases hdz : ∃ k ∈ a.parts.keys, distPop nodes a.mapping pop k = 0
  · obtain ⟨k, hk, hz⟩ := hdz
    rw [splitScore_zero htab (fun k _ c _ => h0 c k) hls ⟨k, List.mem_toFinset.2 hk, by rw [sum_popIn_dist]; exact hz⟩]
  · have hpos : ∀ k ∈ a.parts.keys.toFinset, 0 < ∑ c ∈ nodes.image col, popIn nodes col a.mapping pop c k := by
      intro k hk
      refine lt_of_le_of_ne (Finset.sum_nonneg fun c _ => h0 c k) (fun h => hdz ⟨k, List.mem_toFinset.1 hk, ?_⟩)
      rw [← sum_popIn_dist (col := col)]; exact h.symm
    rw [splitScore_ok htab (fun k _ c _ => h0 c k) hpos]
    simp only
    obtain ⟨v, hv, hz⟩ := hz.resolve_left hdz
    exact splitScore_zero htab' (fun c _ k _ => h0 c k) hks ⟨col v, Finset.mem_image_of_mem _ hv, by rw [sum_popIn_loc hcoh hcov]; exact hz⟩ _

end

/-- **C90 (histories).** The hypotheses of `C90_shannon_partial`, `C90_power_partial` and `C90_symmetric_partial` on the plan hold for every partition in every history;
localities named by a string attribute are string labels.  So scoring any partition of any history yields the entropy of its current plan. -/
theorem C90_history_partial {D : GraphData V} {ups : List Key} {ops : List (Op V P)} (hD : D.graph.WF) (hops : ∀ op ∈ ops, op.WF) {p : ℕ}
    {v : View V P} (hv : (Heap.after D ups ops).frame.view p = some v) (field : String) {locs : List LocLabel} (hl : locs.Nodup)
    (hm : ∀ c, c ∈ locs ↔ c ∈ D.graph.nodes.image (fun x => LocLabel.str (D.region field x))) :
    ∃ splits e, localitySplits (localityDict D.graph.nodes (fun x => LocLabel.str (D.region field x))) v.assignment.parts = .ok splits ∧
      shannonEntropy locs splits = .ok e ∧ 0 ≤ e ∧ e ≤ Real.log v.assignment.parts.keys.length ∧
      (e = 0 ↔ ∀ x ∈ D.graph.nodes, ∀ y ∈ D.graph.nodes, D.region field x = D.region field y →
        v.assignment.mapping.get? x = v.assignment.mapping.get? y) := by
  obtain ⟨hi, hdat, -⟩ := after_inv (P := P) (ups := ups) hD hops
  have hcov := hi.frame.covers p v hv
  have hcoh := hi.frame.coherent p v hv
  rw [hdat] at hcov
  have hsp := localitySplits_ok (nodes := D.graph.nodes) (col := fun x => LocLabel.str (D.region field x)) (parts := v.assignment.parts) (by
    intro e he; rw [part_eq hcoh hcov he]; exact Finset.filter_subset _ _)
  obtain ⟨e, h1, -, h3, h4, h5⟩ := C90_shannon_partial hcoh hcov (fun x _ => ⟨_, rfl⟩) hl hm hsp
  refine ⟨_, e, hsp, h1, h3, h4, h5.trans ?_⟩
  unfold Unsplit
  simp only [LocLabel.str.injEq]

/-! #### examples -/

/-- a plan on the nodes 0–3 in which locality A = {0, 1} is split and district 2 = {1, 2, 3} -/
def exEntDict : Dict ℕ ℕ := ⟨[(0, 1), (1, 2), (2, 2), (3, 2)]⟩

/-- its localities -/
def exEntCol (v : ℕ) : LocLabel := if v < 2 then .str "A" else .str "B"

/-- the assignment of the plan -/
def exEntPlan : Assignment ℕ ℕ := ⟨⟨[(1, {0}), (2, {1, 2, 3})]⟩, exEntDict⟩

theorem exEntPlan_coherent : exEntPlan.Coherent ∧ exEntPlan.Covers {0, 1, 2, 3} := by
  have hg : ∀ v, exEntDict.get? v = if v = 0 then some 1 else if v = 1 then some 2 else if v = 2 then some 2 else if v = 3 then some 2 else none := by
    intro v
    unfold exEntDict Dict.get?
    simp only [List.find?_cons, List.find?_nil]
    by_cases h0 : v = 0
    · subst h0; rfl
    · by_cases h1 : v = 1
      · subst h1; rfl
      · by_cases h2 : v = 2
        · subst h2; rfl
        · by_cases h3 : v = 3
          · subst h3; rfl
          · simp [h0, h1, h2, h3, Ne.symm h0, Ne.symm h1, Ne.symm h2, Ne.symm h3]
  refine ⟨⟨by unfold Dict.WF; decide, by unfold Dict.WF; decide, ?_, ?_⟩, fun v => ?_⟩
  · intro p s hs v
    have := Dict.mem_entries_of_get? hs
    simp only [exEntPlan, List.mem_cons, Prod.mk.injEq, List.not_mem_nil, or_false] at this
    show v ∈ s ↔ exEntDict.get? v = some p
    rw [hg]
    rcases this with ⟨rfl, rfl⟩ | ⟨rfl, rfl⟩
    · by_cases h0 : v = 0
      · simp [h0]
      · simp only [Finset.mem_singleton, h0, if_false, false_iff]
        split_ifs <;> simp
    · by_cases h0 : v = 0
      · simp [h0]
      · simp only [Finset.mem_insert, Finset.mem_singleton, h0, if_false]
        split_ifs <;> simp_all
  · intro v p hv
    have : exEntDict.get? v = some p := hv
    rw [hg] at this
    show p ∈ [1, 2]
    split_ifs at this <;> simp_all
  · simp [exEntPlan, exEntDict, Dict.keys]

/-- The plan meets the hypotheses of `C90_shannon_partial`; A is split, so that its entropy is positive. -/
example : ∃ splits e, localitySplits (localityDict {0, 1, 2, 3} exEntCol) exEntPlan.parts = .ok splits ∧
    shannonEntropy [.str "B", .str "A"] splits = .ok e ∧ 0 < e := by
  obtain ⟨h1, h2⟩ := exEntPlan_coherent
  have hsp := localitySplits_ok (nodes := {0, 1, 2, 3}) (col := exEntCol) (parts := exEntPlan.parts) (by decide)
  obtain ⟨e, g1, -, g3, -, g5⟩ := C90_shannon_partial h1 h2 (col := exEntCol) (fun v _ => by unfold exEntCol; split_ifs <;> exact ⟨_, rfl⟩)
    (locs := [.str "B", .str "A"]) (by decide) (by intro c; rw [show ({0, 1, 2, 3} : Finset ℕ).image exEntCol = {.str "A", .str "B"} by decide +kernel]; simp [or_comm]) hsp
  refine ⟨_, e, hsp, g1, lt_of_le_of_ne g3 (Ne.symm fun h => ?_)⟩
  have := g5.1 h 0 (by decide) 1 (by decide) rfl
  revert this
  decide +kernel

/-- The same plan and the power entropy with the default exponent. -/
example : ∃ splits e, localitySplits (localityDict {0, 1, 2, 3} exEntCol) exEntPlan.parts = .ok splits ∧
    powerEntropy 0.05 [.str "B", .str "A"] splits = .ok e ∧ 0 < e := by
  obtain ⟨h1, h2⟩ := exEntPlan_coherent
  have hsp := localitySplits_ok (nodes := {0, 1, 2, 3}) (col := exEntCol) (parts := exEntPlan.parts) (by decide)
  obtain ⟨e, g1, -, g3, g4, -⟩ := C90_power_partial h1 h2 (col := exEntCol) (fun v _ => by unfold exEntCol; split_ifs <;> exact ⟨_, rfl⟩)
    (locs := [.str "B", .str "A"]) (by decide) (by intro c; rw [show ({0, 1, 2, 3} : Finset ℕ).image exEntCol = {.str "A", .str "B"} by decide +kernel]; simp [or_comm]) hsp 0.05
  refine ⟨_, e, hsp, g1, lt_of_le_of_ne (g3 (by norm_num)) (Ne.symm fun h => ?_)⟩
  have := (g4 (by norm_num)).1 h 0 (by decide) 1 (by decide) rfl
  revert this
  decide +kernel

/-- The same plan with numbered localities: both entropies raise. -/
example : ∃ splits, localitySplits (localityDict {0, 1, 2, 3} (fun v : ℕ => if v < 2 then LocLabel.num 1 else .num 2)) exEntPlan.parts = .ok splits ∧
    shannonEntropy [.num 1, .num 2] splits = .error .keyError ∧ powerEntropy 0.05 [.num 1, .num 2] splits = .error .keyError := by
  obtain ⟨h1, h2⟩ := exEntPlan_coherent
  have hsp := localitySplits_ok (nodes := {0, 1, 2, 3}) (col := fun v : ℕ => if v < 2 then LocLabel.num 1 else .num 2) (parts := exEntPlan.parts) (by decide)
  refine ⟨_, hsp, C90_number_violation h1 h2 (locs := [.num 1, .num 2]) (fun c => ?_) hsp (v := 0) (by decide) (n := 1) rfl ?_ 0.05⟩
  · rw [show ({0, 1, 2, 3} : Finset ℕ).image (fun v : ℕ => if v < 2 then LocLabel.num 1 else .num 2) = {.num 1, .num 2} by decide +kernel]; simp
  · intro w _ _; split_ifs <;> simp

/-- The same plan, every node with population 1: the symmetric entropy is more than twice the population. -/
example : ∃ e, symmetricEntropy [.str "B", .str "A"] (localityDict {0, 1, 2, 3} exEntCol) (fun _ => 1) exEntPlan.parts = .ok e ∧ 8 < e := by
  obtain ⟨h1, h2⟩ := exEntPlan_coherent
  obtain ⟨e, g1, -, g3, g4⟩ := C90_symmetric_partial h1 h2 (col := exEntCol) (pop := fun _ => 1)
    (locs := [.str "B", .str "A"]) (by intro c; rw [show ({0, 1, 2, 3} : Finset ℕ).image exEntCol = {.str "A", .str "B"} by decide +kernel]; simp [or_comm])
    (fun _ _ => zero_le_one) (by decide +kernel) (by decide +kernel)
  have hs : ((∑ v ∈ ({0, 1, 2, 3} : Finset ℕ), (1 : ℚ) : ℚ) : ℝ) = 4 := by norm_num
  rw [hs] at g3 g4
  refine ⟨e, g1, lt_of_le_of_ne (by linarith) (fun h => ?_)⟩
  have := (g4.1 (by linarith) 0 (by decide) 1 (by decide) one_pos one_pos).1 rfl
  revert this
  decide +kernel

/-- A district without population. -/
example : symmetricEntropy [.str "B", .str "A"] (localityDict {0, 1, 2, 3} exEntCol) (fun v => if v = 0 then 0 else 1) exEntPlan.parts =
    .error .zeroDivision := by
  obtain ⟨h1, h2⟩ := exEntPlan_coherent
  exact C90_symmetric_violation h1 h2 (col := exEntCol)
    (by intro c; rw [show ({0, 1, 2, 3} : Finset ℕ).image exEntCol = {.str "A", .str "B"} by decide +kernel]; simp [or_comm])
    (by decide +kernel) ⟨0, by decide⟩ (.inl ⟨1, by decide +kernel⟩)

end GC

import Verif.Model.Entropy
import Verif.Props.Locality
import Mathlib.Analysis.SpecialFunctions.Log.NegMulLog
import Mathlib.Algebra.BigOperators.Field

/-!
# C90: entropies of locality splits
-/

set_option linter.unusedSectionVars false
set_option autoImplicit false

namespace GC

variable {V P L : Type} [LinearOrder V] [DecidableEq P] [DecidableEq L]

/-- the nodes of a locality -/
def locNodes (nodes : Finset V) (col : V → L) (c : L) : Finset V := nodes.filter (fun v => col v = c)

/-- the nodes of a locality that lie in district `k` -/
def locNodesIn (nodes : Finset V) (col : V → L) (m : Dict V P) (c : L) (k : P) : Finset V :=
  nodes.filter (fun v => col v = c ∧ m.get? v = some k)

/-- the share of the nodes of locality `c` that lie in district `k` -/
noncomputable def locShare (nodes : Finset V) (col : V → L) (m : Dict V P) (c : L) (k : P) : ℝ :=
  ((locNodesIn nodes col m c k).card : ℝ) / (locNodes nodes col c).card

/-- No locality meets two districts. -/
def Unsplit (nodes : Finset V) (col : V → L) (m : Dict V P) : Prop :=
  ∀ x ∈ nodes, ∀ y ∈ nodes, col x = col y → m.get? x = m.get? y

theorem foldlM_addA {A B : Type} [AddMonoid B] (g : A → B) (f : B → A → Py B) (l : List A) (h : ∀ x ∈ l, ∀ n, f n x = .ok (n + g x)) (n : B) :
    l.foldlM f n = .ok (n + (l.map g).sum) := by
  induction l generalizing n with
  | nil => simp [pure, Except.pure]
  | cons x l ih =>
    rw [List.foldlM_cons, h x List.mem_cons_self]
    simp only [bind, Except.bind]
    rw [ih (fun y hy => h y (List.mem_cons_of_mem _ hy)), List.map_cons, List.sum_cons, add_assoc]

theorem counter_get? (l : List L) (x : L) : (counter l).get? x = if x ∈ l then some (l.count x) else none := by
  have h := ((counter_fold l _ Dict.wf_empty).2 x).1
  have h' : ((counter l).get? x).getD 0 = l.count x := by
    rw [counter, h]; simp
  by_cases hx : x ∈ l
  · rw [if_pos hx]
    obtain ⟨n, hn⟩ := Dict.mem_keys_iff.1 (mem_counter.2 hx)
    rw [hn] at h' ⊢
    rw [← h']; rfl
  · rw [if_neg hx]
    exact Dict.get?_eq_none_iff.2 (fun h => hx (mem_counter.1 h))

theorem values_sum_keys {K : Type} [DecidableEq K] (d : Dict K ℕ) (hd : d.WF) : d.values.sum = ∑ k ∈ d.keys.toFinset, (d.get? k).getD 0 := by
  rw [List.sum_toFinset _ hd]
  unfold Dict.keys Dict.values
  rw [List.map_map]
  congr 1
  apply List.map_congr_left
  intro e he
  have := Dict.get?_of_mem_entries hd (k := e.1) (v := e.2) he
  simp [this]

theorem counter_values_sum (l : List L) : (counter l).values.sum = l.length := by
  rw [values_sum_keys _ (counter_wf l), ← List.sum_toFinset_count_eq_length]
  have : (counter l).keys.toFinset = l.toFinset := by ext x; simp [mem_counter]
  rw [this]
  refine Finset.sum_congr rfl fun x hx => ?_
  rw [counter_get?, if_pos (List.mem_toFinset.1 hx)]; rfl

theorem part_eq {nodes : Finset V} {a : Assignment V P} (hcoh : a.Coherent) (hcov : a.Covers nodes) {e : P × Finset V}
    (he : e ∈ a.parts.entries) : e.2 = nodes.filter (fun v => a.mapping.get? v = some e.1) := by
  have h := hcoh.agree e.1 e.2 (Dict.get?_of_mem_entries hcoh.parts_wf he)
  ext v
  rw [h v, Finset.mem_filter]
  exact ⟨fun h => ⟨(hcov v).1 (Dict.mem_keys_iff.2 ⟨_, h⟩), h⟩, fun h => h.2⟩

theorem count_part {nodes : Finset V} {col : V → L} {a : Assignment V P} (hcoh : a.Coherent) (hcov : a.Covers nodes) {e : P × Finset V}
    (he : e ∈ a.parts.entries) (c : L) : ((iter e.2).map col).count c = (locNodesIn nodes col a.mapping c e.1).card := by
  rw [List.count, List.countP_map, List.countP_eq_length_filter, ← List.toFinset_card_of_nodup ((nodup_iter _).filter _)]
  congr 1
  ext v
  rw [List.mem_toFinset, List.mem_filter, mem_iter, part_eq hcoh hcov he]
  simp only [Finset.mem_filter, Function.comp_apply, beq_iff_eq, locNodesIn]
  tauto

theorem sum_over_parts {B : Type} [AddCommMonoid B] {a : Assignment V P} (hcoh : a.Coherent) (f : P → B) :
    (a.parts.entries.map (fun e => f e.1)).sum = ∑ k ∈ a.parts.keys.toFinset, f k := by
  rw [List.sum_toFinset _ hcoh.parts_wf]
  unfold Dict.keys
  rw [List.map_map]; rfl

theorem sum_locNodesIn {nodes : Finset V} {col : V → L} {a : Assignment V P} (hcoh : a.Coherent) (hcov : a.Covers nodes) (c : L) :
    ∑ k ∈ a.parts.keys.toFinset, (locNodesIn nodes col a.mapping c k).card = (locNodes nodes col c).card := by
  rw [← Finset.card_biUnion]
  · congr 1
    ext v
    simp only [Finset.mem_biUnion, List.mem_toFinset, locNodesIn, locNodes, Finset.mem_filter]
    constructor
    · rintro ⟨k, _, h1, h2, _⟩; exact ⟨h1, h2⟩
    · rintro ⟨h1, h2⟩
      obtain ⟨k, hk⟩ := Dict.mem_keys_iff.1 ((hcov v).2 h1)
      exact ⟨k, hcoh.complete v k hk, h1, h2, hk⟩
  · intro k _ k' _ hne
    rw [Function.onFun, Finset.disjoint_left]
    intro v h1 h2
    simp only [locNodesIn, Finset.mem_filter] at h1 h2
    exact hne (Option.some.inj (h1.2.2.symm.trans h2.2.2))

theorem localityVtds_eq {nodes : Finset V} {col : V → L} {a : Assignment V P} (hcoh : a.Coherent) (hcov : a.Covers nodes) (c : L) :
    localityVtds (splitsOf col a.parts) c = (locNodes nodes col c).card := by
  have h : ∀ s : Dict P (Dict L ℕ), localityVtds s c = s.values.foldl (fun t v => t + (v.get? c).getD 0) 0 := by
    intro s
    unfold localityVtds
    congr 1
    funext t v
    cases v.get? c <;> simp
  rw [h]
  rw [foldl_add_map, Nat.zero_add, ← sum_locNodesIn hcoh hcov, ← sum_over_parts hcoh]
  unfold splitsOf Dict.values
  rw [List.map_map, List.map_map]
  congr 1
  apply List.map_congr_left
  intro e he
  simp only [Function.comp_apply, counter_get?]
  rw [← count_part hcoh hcov he]
  split_ifs with hx
  · rfl
  · exact (List.count_eq_zero.2 hx).symm

theorem totalVtds_eq {nodes : Finset V} {col : V → L} {a : Assignment V P} (hcoh : a.Coherent) (hcov : a.Covers nodes) :
    totalVtds (splitsOf col a.parts) = nodes.card := by
  have h : ∀ v : Dict L ℕ, ∀ t : ℕ, v.values.foldl (· + ·) t = t + v.values.sum := by
    intro v t
    have := foldl_add_map (fun x : ℕ => x) v.values t
    simpa using this
  unfold totalVtds
  simp only [h]
  rw [foldl_add_map, Nat.zero_add]
  unfold splitsOf
  rw [Dict.values, List.map_map, List.map_map]
  have h2 : a.parts.entries.map (((fun v : Dict L ℕ => v.values.sum) ∘ fun x => x.2) ∘ fun e => (e.1, counter ((iter e.2).map col))) =
      a.parts.entries.map (fun e => (nodes.filter (fun v => a.mapping.get? v = some e.1)).card) := by
    apply List.map_congr_left
    intro e he
    simp only [Function.comp_apply, counter_values_sum, List.length_map]
    rw [← part_eq hcoh hcov he, ← List.toFinset_card_of_nodup (nodup_iter _)]
    congr 1
    ext v; simp
  rw [h2, sum_over_parts hcoh (fun k => (nodes.filter (fun v => a.mapping.get? v = some k)).card), ← Finset.card_biUnion]
  · congr 1
    ext v
    simp only [Finset.mem_biUnion, List.mem_toFinset, Finset.mem_filter]
    constructor
    · rintro ⟨k, _, h1, _⟩; exact h1
    · intro h1
      obtain ⟨k, hk⟩ := Dict.mem_keys_iff.1 ((hcov v).2 h1)
      exact ⟨k, hcoh.complete v k hk, h1, hk⟩
  · intro k _ k' _ hne
    rw [Function.onFun, Finset.disjoint_left]
    intro v h1 h2
    simp only [Finset.mem_filter] at h1 h2
    exact hne (Option.some.inj (h1.2.symm.trans h2.2))

/-- The inner sum is over all districts, with 0 for those that do not meet the locality. -/
theorem entropyInner_eq {nodes : Finset V} {col : V → LocLabel} {a : Assignment V P} (hcoh : a.Coherent) (hcov : a.Covers nodes)
    {c : LocLabel} (hs : c.toStr = c) (hc : (locNodes nodes col c).Nonempty) (term : ℝ → ℝ) :
    entropyInner (splitsOf col a.parts) (locNodes nodes col c).card c term =
      .ok (∑ k ∈ a.parts.keys.toFinset, if locShare nodes col a.mapping c k = 0 then 0 else term (locShare nodes col a.mapping c k)) := by
  unfold entropyInner splitsOf Dict.values
  rw [List.map_map]
  have hpos : (locNodes nodes col c).card ≠ 0 := Finset.card_ne_zero.2 hc
  rw [← sum_over_parts hcoh (fun k => if locShare nodes col a.mapping c k = 0 then (0 : ℝ) else term (locShare nodes col a.mapping c k)), List.foldlM_map,
    foldlM_addA (fun e : P × Finset V => if locShare nodes col a.mapping c e.1 = 0 then (0 : ℝ) else term (locShare nodes col a.mapping c e.1)), zero_add]
  intro e he n
  simp only [Function.comp_apply, entropyStep]
  have hcnt := count_part (col := col) hcoh hcov he c
  by_cases hx : c ∈ (iter e.2).map col
  · have hg : (counter ((iter e.2).map col)).get c = .ok ((iter e.2).map col |>.count c) := by
      rw [Dict.get_eq_ok_iff, counter_get?, if_pos hx]
    rw [if_pos (mem_counter.2 hx), hs, hg]
    simp only [bind, Except.bind]
    rw [if_neg hpos, hcnt]
    show (if locShare nodes col a.mapping c e.1 ≠ 0 then _ else _) = _
    by_cases h0 : locShare nodes col a.mapping c e.1 = 0
    · rw [if_neg (not_not.2 h0), if_pos h0, add_zero]
    · rw [if_pos h0, if_neg h0]; rfl
  · rw [if_neg (fun h => hx (mem_counter.1 h))]
    have h0 : locShare nodes col a.mapping c e.1 = 0 := by
      rw [locShare, ← hcnt, List.count_eq_zero.2 hx]; simp
    rw [if_pos h0, add_zero]

/-! ### shares -/

section shares
variable {nodes : Finset V} {col : V → L} {a : Assignment V P}

theorem locShare_nonneg (c : L) (k : P) : 0 ≤ locShare nodes col a.mapping c k := by unfold locShare; positivity

theorem locShare_sum (hcoh : a.Coherent) (hcov : a.Covers nodes) {c : L} (hc : (locNodes nodes col c).Nonempty) :
    ∑ k ∈ a.parts.keys.toFinset, locShare nodes col a.mapping c k = 1 := by
  unfold locShare
  rw [← Finset.sum_div, ← Nat.cast_sum, sum_locNodesIn hcoh hcov]
  exact div_self (Nat.cast_ne_zero.2 (Finset.card_ne_zero.2 hc))

theorem locShare_le_one (c : L) (k : P) : locShare nodes col a.mapping c k ≤ 1 := by
  unfold locShare
  refine div_le_one_of_le₀ ?_ (by positivity)
  exact_mod_cast Finset.card_le_card (fun v hv => by
    simp only [locNodesIn, locNodes, Finset.mem_filter] at hv ⊢
    exact ⟨hv.1, hv.2.1⟩)

/-- The shares of a locality are all 0 or 1 exactly when it is not split. -/
theorem locShare_zero_one (hcoh : a.Coherent) (hcov : a.Covers nodes) :
    (∀ c ∈ nodes.image col, ∀ k ∈ a.parts.keys.toFinset, locShare nodes col a.mapping c k = 0 ∨ locShare nodes col a.mapping c k = 1) ↔
    Unsplit nodes col a.mapping := by
  constructor
  · intro h x hx y hy hxy
    obtain ⟨k, hk⟩ := Dict.mem_keys_iff.1 ((hcov x).2 hx)
    have hne : (locNodesIn nodes col a.mapping (col x) k).Nonempty := ⟨x, by simp [locNodesIn, hx, hk]⟩
    have hsub : locNodesIn nodes col a.mapping (col x) k ⊆ locNodes nodes col (col x) := fun v hv => by
      simp only [locNodesIn, locNodes, Finset.mem_filter] at hv ⊢
      exact ⟨hv.1, hv.2.1⟩
    have hpos : ((locNodes nodes col (col x)).card : ℝ) ≠ 0 := Nat.cast_ne_zero.2 (Finset.card_ne_zero.2 (hne.mono hsub))
    rcases h (col x) (Finset.mem_image_of_mem _ hx) k (List.mem_toFinset.2 (hcoh.complete x k hk)) with h | h
    · exfalso
      rw [locShare, div_eq_zero_iff] at h
      rcases h with h | h
      · exact Finset.card_ne_zero.2 hne (by exact_mod_cast h)
      · exact hpos h
    · rw [locShare, div_eq_one_iff_eq hpos] at h
      have h := Finset.eq_of_subset_of_card_le hsub (le_of_eq (by exact_mod_cast h.symm))
      have : y ∈ locNodesIn nodes col a.mapping (col x) k := by rw [h]; simp [locNodes, hy, hxy]
      simp only [locNodesIn, Finset.mem_filter] at this
      rw [hk, this.2.2]
  · intro h c hc k _
    by_cases hne : (locNodesIn nodes col a.mapping c k).Nonempty
    · right
      obtain ⟨x, hx⟩ := hne
      have hx' := hx
      simp only [locNodesIn, Finset.mem_filter] at hx
      have : locNodesIn nodes col a.mapping c k = locNodes nodes col c := by
        ext y
        simp only [locNodesIn, locNodes, Finset.mem_filter]
        refine ⟨fun hy => ⟨hy.1, hy.2.1⟩, fun hy => ⟨hy.1, hy.2, ?_⟩⟩
        rw [← h x hx.1 y hy.1 (hx.2.1.trans hy.2.symm), hx.2.2]
      rw [locShare, this]
      refine div_self (Nat.cast_ne_zero.2 (Finset.card_ne_zero.2 ⟨x, ?_⟩))
      rw [← this]; exact hx'
    · left
      rw [Finset.not_nonempty_iff_eq_empty] at hne
      rw [locShare, hne]; simp

end shares

/-! ### Shannon and power entropy -/

theorem sum_locs {B : Type} [AddCommMonoid B] {nodes : Finset V} {col : V → L} {locs : List L} (hl : locs.Nodup)
    (hm : ∀ c, c ∈ locs ↔ c ∈ nodes.image col) (f : L → B) : (locs.map f).sum = ∑ c ∈ nodes.image col, f c := by
  rw [← List.sum_toFinset _ hl]
  congr 1
  ext c; rw [List.mem_toFinset, hm]

theorem locNodes_nonempty {nodes : Finset V} {col : V → L} {c : L} (hc : c ∈ nodes.image col) : (locNodes nodes col c).Nonempty := by
  obtain ⟨v, hv, rfl⟩ := Finset.mem_image.1 hc
  exact ⟨v, by simp [locNodes, hv]⟩

theorem sum_locNodes (nodes : Finset V) (col : V → L) : ∑ c ∈ nodes.image col, (locNodes nodes col c).card = nodes.card :=
  (Finset.card_eq_sum_card_image col nodes).symm

theorem entropy_le_log {ι : Type} (s : Finset ι) (p : ι → ℝ) (h0 : ∀ i ∈ s, 0 ≤ p i) (h1 : ∑ i ∈ s, p i = 1) :
    ∑ i ∈ s, Real.negMulLog (p i) ≤ Real.log s.card := by
  have hs : s.Nonempty := by
    rw [Finset.nonempty_iff_ne_empty]; rintro rfl; simp at h1
  have hK : (0 : ℝ) < s.card := Nat.cast_pos.2 (Finset.card_pos.2 hs)
  have key : ∀ i ∈ s, Real.negMulLog (p i) ≤ p i * Real.log s.card + (1 / s.card - p i) := by
    intro i hi
    rcases (h0 i hi).eq_or_lt with h | h
    · rw [← h]; simp
    · have := Real.log_le_sub_one_of_pos (x := 1 / (p i * s.card)) (by positivity)
      rw [Real.log_div one_ne_zero (by positivity), Real.log_one, Real.log_mul h.ne' hK.ne'] at this
      have h2 := mul_le_mul_of_nonneg_left this h.le
      have h3 : p i * (1 / (p i * s.card) - 1) = 1 / s.card - p i := by field_simp
      rw [h3] at h2
      unfold Real.negMulLog
      linarith
  refine (Finset.sum_le_sum key).trans ?_
  rw [Finset.sum_add_distrib, ← Finset.sum_mul, h1, Finset.sum_sub_distrib, h1, Finset.sum_const, nsmul_eq_mul]
  field_simp
  linarith

section
variable {nodes : Finset V} {a : Assignment V P} {col : V → LocLabel} {locs : List LocLabel} {splits : Dict P (Dict LocLabel ℕ)}

theorem splits_eq (hcoh : a.Coherent) (hcov : a.Covers nodes) (hsp : localitySplits (localityDict nodes col) a.parts = .ok splits) :
    splits = splitsOf col a.parts := by
  rw [localitySplits_ok] at hsp
  · exact (Except.ok.inj hsp).symm
  · intro e he; rw [part_eq hcoh hcov he]; exact Finset.filter_subset _ _

theorem toStr_of_str (hstr : ∀ v ∈ nodes, ∃ s, col v = .str s) {c : LocLabel} (hc : c ∈ nodes.image col) : c.toStr = c := by
  obtain ⟨v, hv, rfl⟩ := Finset.mem_image.1 hc
  obtain ⟨s, hs⟩ := hstr v hv
  rw [hs]; rfl

/-- **C90 (Shannon entropy).** When all localities have string names, the Shannon entropy is the entropy of the district of a random node given
its locality; it is at least 0, at most the logarithm of the number of districts, and 0 exactly when no locality is split.  Missing: localities that
are numbers, see `C90_number_violation`. -/
theorem C90_shannon_partial (hcoh : a.Coherent) (hcov : a.Covers nodes) (hstr : ∀ v ∈ nodes, ∃ s, col v = .str s) (hl : locs.Nodup)
    (hm : ∀ c, c ∈ locs ↔ c ∈ nodes.image col) (hsp : localitySplits (localityDict nodes col) a.parts = .ok splits) :
    ∃ e, shannonEntropy locs splits = .ok e ∧
      e = ∑ c ∈ nodes.image col, ((locNodes nodes col c).card / nodes.card : ℝ) *
        ∑ k ∈ a.parts.keys.toFinset, Real.negMulLog (locShare nodes col a.mapping c k) ∧
      0 ≤ e ∧ e ≤ Real.log a.parts.keys.length ∧ (e = 0 ↔ Unsplit nodes col a.mapping) := by
  rw [splits_eq hcoh hcov hsp]
  have hq : ∀ c, 0 ≤ ((locNodes nodes col c).card / nodes.card : ℝ) := fun c => by positivity
  have hH : ∀ c k, 0 ≤ Real.negMulLog (locShare nodes col a.mapping c k) := fun c k =>
    Real.negMulLog_nonneg (locShare_nonneg c k) (locShare_le_one c k)
  have hT : ∀ c, 0 ≤ ∑ k ∈ a.parts.keys.toFinset, Real.negMulLog (locShare nodes col a.mapping c k) := fun c => Finset.sum_nonneg fun k _ => hH c k
  refine ⟨_, ?_, rfl, Finset.sum_nonneg fun c _ => mul_nonneg (hq c) (hT c), ?_, ?_⟩
  · unfold shannonEntropy
    rw [foldlM_addA (fun c => ((locNodes nodes col c).card / nodes.card : ℝ) *
        ∑ k ∈ a.parts.keys.toFinset, Real.negMulLog (locShare nodes col a.mapping c k)), zero_add, sum_locs hl hm]
    intro c hc n
    have hc := (hm c).1 hc
    obtain ⟨v, hv⟩ := locNodes_nonempty hc
    have hn : nodes.card ≠ 0 := Finset.card_ne_zero.2 ⟨v, (Finset.mem_filter.1 hv).1⟩
    rw [totalVtds_eq hcoh hcov, localityVtds_eq hcoh hcov, if_neg hn, entropyInner_eq hcoh hcov (toStr_of_str hstr hc) ⟨v, hv⟩]
    simp only [bind, Except.bind, pure, Except.pure]
    congr 3
    refine Finset.sum_congr rfl fun k _ => ?_
    split_ifs with h0
    · rw [h0, Real.negMulLog_zero]
    · rw [one_div, Real.log_inv, Real.negMulLog]; ring
  · have hle : ∀ c ∈ nodes.image col, ((locNodes nodes col c).card / nodes.card : ℝ) *
        ∑ k ∈ a.parts.keys.toFinset, Real.negMulLog (locShare nodes col a.mapping c k) ≤
        ((locNodes nodes col c).card / nodes.card : ℝ) * Real.log a.parts.keys.length := by
      intro c hc
      refine mul_le_mul_of_nonneg_left ?_ (hq c)
      have := entropy_le_log a.parts.keys.toFinset (locShare nodes col a.mapping c) (fun k _ => locShare_nonneg c k)
        (locShare_sum hcoh hcov (locNodes_nonempty hc))
      rwa [List.toFinset_card_of_nodup hcoh.parts_wf] at this
    refine (Finset.sum_le_sum hle).trans ?_
    rw [← Finset.sum_mul, ← Finset.sum_div, ← Nat.cast_sum, sum_locNodes]
    have hlog : 0 ≤ Real.log a.parts.keys.length := Real.log_natCast_nonneg _
    calc ((nodes.card : ℝ) / nodes.card) * Real.log a.parts.keys.length ≤ 1 * Real.log a.parts.keys.length :=
          mul_le_mul_of_nonneg_right (div_self_le_one _) hlog
      _ = _ := one_mul _
  · rw [Finset.sum_eq_zero_iff_of_nonneg (fun c _ => mul_nonneg (hq c) (hT c)), ← locShare_zero_one hcoh hcov]
    refine forall₂_congr fun c hc => ?_
    obtain ⟨v, hv⟩ := locNodes_nonempty hc
    have h1 : ((locNodes nodes col c).card : ℝ) ≠ 0 := Nat.cast_ne_zero.2 (Finset.card_ne_zero.2 ⟨v, hv⟩)
    have h2 : (nodes.card : ℝ) ≠ 0 := Nat.cast_ne_zero.2 (Finset.card_ne_zero.2 ⟨v, (Finset.mem_filter.1 hv).1⟩)
    rw [mul_eq_zero, or_iff_right (div_ne_zero h1 h2), Finset.sum_eq_zero_iff_of_nonneg (fun k _ => hH c k)]
    refine forall₂_congr fun k _ => ?_
    have hn := locShare_nonneg (nodes := nodes) (col := col) (a := a) c k
    unfold Real.negMulLog
    rw [mul_eq_zero, neg_eq_zero, Real.log_eq_zero]
    constructor
    · rintro (h | h | h | h)
      · exact .inl h
      · exact .inl h
      · exact .inr h
      · linarith
    · rintro (h | h)
      · exact .inl h
      · exact .inr (.inr (.inl h))

/-- **C90 (power entropy).** When all localities have string names, the power entropy sums, over the localities, (`Σ p ^ (1 - α)` - 1) / `q` with
the shares `p` of the districts that meet the locality and the share `q` of the locality among the nodes.  For `α ≥ 0` it is at least 0; for `α > 0`
it is 0 exactly when no locality is split; for `α = 0` it is always 0.  Missing: localities that are numbers, see `C90_number_violation`. -/
theorem C90_power_partial (hcoh : a.Coherent) (hcov : a.Covers nodes) (hstr : ∀ v ∈ nodes, ∃ s, col v = .str s) (hl : locs.Nodup)
    (hm : ∀ c, c ∈ locs ↔ c ∈ nodes.image col) (hsp : localitySplits (localityDict nodes col) a.parts = .ok splits) (alpha : ℝ) :
    ∃ e, powerEntropy alpha locs splits = .ok e ∧
      e = ∑ c ∈ nodes.image col, (nodes.card / (locNodes nodes col c).card : ℝ) *
        (∑ k ∈ a.parts.keys.toFinset.filter (fun k => (locNodesIn nodes col a.mapping c k).Nonempty), locShare nodes col a.mapping c k ^ (1 - alpha) - 1) ∧
      (0 ≤ alpha → 0 ≤ e) ∧ (0 < alpha → (e = 0 ↔ Unsplit nodes col a.mapping)) ∧ (alpha = 0 → e = 0) := by
  rw [splits_eq hcoh hcov hsp]
  have hne : ∀ c ∈ nodes.image col, ∀ k, locShare nodes col a.mapping c k ≠ 0 ↔ (locNodesIn nodes col a.mapping c k).Nonempty := by
    intro c hc k
    have h1 : ((locNodes nodes col c).card : ℝ) ≠ 0 := Nat.cast_ne_zero.2 (Finset.card_ne_zero.2 (locNodes_nonempty hc))
    rw [locShare, ne_eq, div_eq_zero_iff, or_iff_left h1, Nat.cast_eq_zero, Finset.card_eq_zero, Finset.nonempty_iff_ne_empty]
  have hsum1 : ∀ c ∈ nodes.image col, ∑ k ∈ a.parts.keys.toFinset.filter (fun k => (locNodesIn nodes col a.mapping c k).Nonempty),
      locShare nodes col a.mapping c k = 1 := by
    intro c hc
    rw [← locShare_sum hcoh hcov (locNodes_nonempty hc), Finset.sum_filter_of_ne]
    intro k _ h; exact (hne c hc k).1 h
  have hq : ∀ c ∈ nodes.image col, 0 < (nodes.card / (locNodes nodes col c).card : ℝ) := by
    intro c hc
    obtain ⟨v, hv⟩ := locNodes_nonempty hc
    have h1 : 0 < ((locNodes nodes col c).card : ℝ) := Nat.cast_pos.2 (Finset.card_pos.2 ⟨v, hv⟩)
    have h2 : 0 < (nodes.card : ℝ) := Nat.cast_pos.2 (Finset.card_pos.2 ⟨v, (Finset.mem_filter.1 hv).1⟩)
    exact div_pos h2 h1
  have hpw : ∀ c ∈ nodes.image col, ∀ k, (locNodesIn nodes col a.mapping c k).Nonempty → 0 ≤ alpha →
      locShare nodes col a.mapping c k ≤ locShare nodes col a.mapping c k ^ (1 - alpha) := by
    intro c hc k hk ha
    have h0 : 0 < locShare nodes col a.mapping c k := lt_of_le_of_ne (locShare_nonneg c k) (Ne.symm ((hne c hc k).2 hk))
    have := Real.rpow_le_rpow_of_exponent_ge h0 (locShare_le_one c k) (by linarith : 1 - alpha ≤ 1)
    rwa [Real.rpow_one] at this
  have hterm : 0 ≤ alpha → ∀ c ∈ nodes.image col, 0 ≤ (nodes.card / (locNodes nodes col c).card : ℝ) *
      (∑ k ∈ a.parts.keys.toFinset.filter (fun k => (locNodesIn nodes col a.mapping c k).Nonempty), locShare nodes col a.mapping c k ^ (1 - alpha) - 1) := by
    intro ha c hc
    refine mul_nonneg (hq c hc).le (sub_nonneg.2 ?_)
    have := Finset.sum_le_sum fun k hk => hpw c hc k (Finset.mem_filter (s := a.parts.keys.toFinset).1 hk).2 ha
    rw [hsum1 c hc] at this
    exact this
  refine ⟨_, ?_, rfl, fun ha => Finset.sum_nonneg (hterm ha), ?_, ?_⟩
  · unfold powerEntropy
    rw [foldlM_addA (fun c => (nodes.card / (locNodes nodes col c).card : ℝ) *
        (∑ k ∈ a.parts.keys.toFinset.filter (fun k => (locNodesIn nodes col a.mapping c k).Nonempty), locShare nodes col a.mapping c k ^ (1 - alpha) - 1)),
      zero_add, sum_locs hl hm]
    intro c hc n
    have hc := (hm c).1 hc
    obtain ⟨v, hv⟩ := locNodes_nonempty hc
    have hn : nodes.card ≠ 0 := Finset.card_ne_zero.2 ⟨v, (Finset.mem_filter.1 hv).1⟩
    have h1 : ((locNodes nodes col c).card : ℝ) ≠ 0 := Nat.cast_ne_zero.2 (Finset.card_ne_zero.2 ⟨v, hv⟩)
    have h2 : (nodes.card : ℝ) ≠ 0 := Nat.cast_ne_zero.2 hn
    rw [totalVtds_eq hcoh hcov, localityVtds_eq hcoh hcov, if_neg hn, entropyInner_eq hcoh hcov (toStr_of_str hstr hc) ⟨v, hv⟩]
    simp only [bind, Except.bind, pure, Except.pure]
    rw [if_neg (div_ne_zero h1 h2), one_div_div]
    congr 4
    rw [Finset.sum_filter]
    refine Finset.sum_congr rfl fun k _ => ?_
    by_cases h0 : locShare nodes col a.mapping c k = 0
    · rw [if_pos h0, if_neg (fun h => (hne c hc k).2 h h0)]
    · rw [if_neg h0, if_pos ((hne c hc k).1 h0)]
  · intro ha
    rw [Finset.sum_eq_zero_iff_of_nonneg (hterm ha.le), ← locShare_zero_one hcoh hcov]
    refine forall₂_congr fun c hc => ?_
    rw [mul_eq_zero, or_iff_right (hq c hc).ne', sub_eq_zero]
    constructor
    · intro h k hk
      by_contra hcon
      rw [not_or] at hcon
      have hkn := (hne c hc k).1 hcon.1
      have hlt : locShare nodes col a.mapping c k < locShare nodes col a.mapping c k ^ (1 - alpha) := by
        have h0 : 0 < locShare nodes col a.mapping c k := lt_of_le_of_ne (locShare_nonneg c k) (Ne.symm hcon.1)
        have := Real.rpow_lt_rpow_of_exponent_gt h0 (lt_of_le_of_ne (locShare_le_one c k) hcon.2) (by linarith : 1 - alpha < 1)
        rwa [Real.rpow_one] at this
      have := Finset.sum_lt_sum (s := a.parts.keys.toFinset.filter (fun k => (locNodesIn nodes col a.mapping c k).Nonempty))
        (f := fun k => locShare nodes col a.mapping c k) (g := fun k => locShare nodes col a.mapping c k ^ (1 - alpha))
        (fun k hk => hpw c hc k (Finset.mem_filter.1 hk).2 ha.le) ⟨k, Finset.mem_filter.2 ⟨hk, hkn⟩, hlt⟩
      rw [hsum1 c hc, h] at this
      exact lt_irrefl _ this
    · intro h
      refine Eq.trans ?_ (hsum1 c hc)
      refine Finset.sum_congr rfl fun k hk => ?_
      rcases h k (Finset.mem_filter.1 hk).1 with h | h
      · exact absurd h ((hne c hc k).2 (Finset.mem_filter.1 hk).2)
      · rw [h, Real.one_rpow]
  · rintro rfl
    refine Finset.sum_eq_zero fun c hc => ?_
    simp only [sub_zero, Real.rpow_one]
    rw [hsum1 c hc, sub_self, mul_zero]

theorem foldlM_raises {A B : Type} {f : B → A → Py B} {l : List A} {err : PyErr} (h1 : ∀ x ∈ l, ∀ n, (∃ y, f n x = .ok y) ∨ f n x = .error err)
    (h2 : ∃ x ∈ l, ∀ n, f n x = .error err) (n : B) : l.foldlM f n = .error err := by
  induction l generalizing n with
  | nil => obtain ⟨x, hx, _⟩ := h2; cases hx
  | cons x l ih =>
    rw [List.foldlM_cons]
    rcases h1 x List.mem_cons_self n with ⟨y, hy⟩ | hy
    · rw [hy]
      simp only [bind, Except.bind]
      refine ih (fun z hz => h1 z (List.mem_cons_of_mem _ hz)) ?_ y
      obtain ⟨z, hz, h⟩ := h2
      rcases List.mem_cons.1 hz with rfl | hz
      · rw [h] at hy; cases hy
      · exact ⟨z, hz, h⟩
    · rw [hy]; rfl

theorem foldlM_ok_or {A B : Type} {f : B → A → Py B} {l : List A} {err : PyErr} (h1 : ∀ x ∈ l, ∀ n, (∃ y, f n x = .ok y) ∨ f n x = .error err)
    (n : B) : (∃ y, l.foldlM f n = .ok y) ∨ l.foldlM f n = .error err := by
  induction l generalizing n with
  | nil => exact .inl ⟨n, rfl⟩
  | cons x l ih =>
    rw [List.foldlM_cons]
    rcases h1 x List.mem_cons_self n with ⟨y, hy⟩ | hy
    · rw [hy]
      simp only [bind, Except.bind]
      exact ih (fun z hz => h1 z (List.mem_cons_of_mem _ hz)) y
    · rw [hy]; exact .inr rfl

theorem entropyStep_cases {tot : ℕ} (ht : tot ≠ 0) (c : LocLabel) (term : ℝ → ℝ) (acc : ℝ) (v : Dict LocLabel ℕ) :
    (∃ y, entropyStep tot c term acc v = .ok y) ∨ entropyStep tot c term acc v = .error .keyError := by
  unfold entropyStep
  by_cases hk : c ∈ v.keys
  · rw [if_pos hk]
    rcases hg : v.get? c.toStr with _ | n
    · right
      rw [Dict.get_eq_error_iff.2 ⟨hg, rfl⟩]
      rfl
    · left
      rw [Dict.get_eq_ok_iff.2 hg]
      simp only [bind, Except.bind]
      rw [if_neg ht]
      split_ifs <;> exact ⟨_, rfl⟩
  · rw [if_neg hk]; exact .inl ⟨_, rfl⟩

theorem entropyInner_num (hcoh : a.Coherent) (hcov : a.Covers nodes) {v : V} (hv : v ∈ nodes) {n : ℤ} (hn : col v = .num n)
    (hno : ∀ w ∈ nodes, a.mapping.get? w = a.mapping.get? v → col w ≠ .str (toString n)) {tot : ℕ} (ht : tot ≠ 0) (term : ℝ → ℝ) :
    entropyInner (splitsOf col a.parts) tot (.num n) term = .error .keyError := by
  unfold entropyInner
  refine foldlM_raises (fun x _ acc => entropyStep_cases ht _ _ _ _) ?_ 0
  obtain ⟨k, hk⟩ := Dict.mem_keys_iff.1 ((hcov v).2 hv)
  obtain ⟨s, hs⟩ := Dict.mem_keys_iff.1 (hcoh.complete v k hk)
  have he := (Dict.mem_entries_iff hcoh.parts_wf).2 hs
  refine ⟨counter ((iter s).map col), List.mem_map.2 ⟨(k, counter ((iter s).map col)), List.mem_map.2 ⟨(k, s), he, rfl⟩, rfl⟩, fun acc => ?_⟩
  unfold entropyStep
  have hin : LocLabel.num n ∈ (counter ((iter s).map col)).keys :=
    mem_counter.2 (List.mem_map.2 ⟨v, mem_iter.2 ((hcoh.agree k s hs v).2 hk), hn⟩)
  have hout : (counter ((iter s).map col)).get? (LocLabel.num n).toStr = none := by
    rw [counter_get?, if_neg]
    intro h
    obtain ⟨w, hw, hc⟩ := List.mem_map.1 h
    have hwk := (hcoh.agree k s hs w).1 (mem_iter.1 hw)
    exact hno w ((hcov w).1 (Dict.mem_keys_iff.2 ⟨k, hwk⟩)) (hwk.trans hk.symm) hc
  rw [if_pos hin, Dict.get_eq_error_iff.2 ⟨hout, rfl⟩]
  rfl

/-- **C90 is violated (localities that are numbers)**: as soon as the attribute of some node is a number, and no node of the same district has
the same number as a string, both entropies raise `KeyError`, whatever the plan. -/
theorem C90_number_violation (hcoh : a.Coherent) (hcov : a.Covers nodes) (hm : ∀ c, c ∈ locs ↔ c ∈ nodes.image col)
    (hsp : localitySplits (localityDict nodes col) a.parts = .ok splits) {v : V} (hv : v ∈ nodes) {n : ℤ} (hn : col v = .num n)
    (hno : ∀ w ∈ nodes, a.mapping.get? w = a.mapping.get? v → col w ≠ .str (toString n)) (alpha : ℝ) :
    shannonEntropy locs splits = .error .keyError ∧ powerEntropy alpha locs splits = .error .keyError := by
  rw [splits_eq hcoh hcov hsp]
  have ht : totalVtds (splitsOf col a.parts) ≠ 0 := by rw [totalVtds_eq hcoh hcov]; exact Finset.card_ne_zero.2 ⟨v, hv⟩
  have hloc : ∀ c ∈ locs, localityVtds (splitsOf col a.parts) c ≠ 0 := by
    intro c hc
    rw [localityVtds_eq hcoh hcov]
    exact Finset.card_ne_zero.2 (locNodes_nonempty ((hm c).1 hc))
  have hin : LocLabel.num n ∈ locs := (hm _).2 (Finset.mem_image.2 ⟨v, hv, hn⟩)
  constructor
  · refine foldlM_raises ?_ ⟨_, hin, fun acc => ?_⟩ 0
    · intro c hc acc
      rw [if_neg ht]
      rcases foldlM_ok_or (fun x _ acc => entropyStep_cases (hloc c hc) c (fun p => p * Real.log (1 / p)) acc x) (l := (splitsOf col a.parts).values) 0
        with ⟨y, hy⟩ | hy
      · left; unfold entropyInner; rw [hy]; exact ⟨_, rfl⟩
      · right; unfold entropyInner; rw [hy]; rfl
    · rw [if_neg ht, entropyInner_num hcoh hcov hv hn hno (hloc _ hin)]; rfl
  · refine foldlM_raises ?_ ⟨_, hin, fun acc => ?_⟩ 0
    · intro c hc acc
      rw [if_neg ht]
      rcases foldlM_ok_or (fun x _ acc => entropyStep_cases (hloc c hc) c (fun p => p ^ (1 - alpha)) acc x) (l := (splitsOf col a.parts).values) 0
        with ⟨y, hy⟩ | hy
      · left; unfold entropyInner; rw [hy]
        simp only [bind, Except.bind]
        rw [if_neg (div_ne_zero (Nat.cast_ne_zero.2 (hloc c hc)) (Nat.cast_ne_zero.2 ht))]
        exact ⟨_, rfl⟩
      · right; unfold entropyInner; rw [hy]; rfl
    · rw [if_neg ht, entropyInner_num hcoh hcov hv hn hno (hloc _ hin)]; rfl

end

end GC

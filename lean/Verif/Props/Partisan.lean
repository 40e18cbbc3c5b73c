import Verif.Model.Partisan
import Verif.Props.Election
import Mathlib.Tactic.Linarith
import Mathlib.Tactic.FieldSimp
import Mathlib.Data.List.GetD

/-!
# Partisan metrics (C51, C68)
-/

set_option linter.unusedSectionVars false
set_option autoImplicit false

namespace GC

variable {P : Type} [DecidableEq P]

/-- The results `r` of an election with the parties `a` (first) and `b`, who got `x` and `y` votes in each district. -/
structure TwoParty (r : ElectionVal P) (a b : String) (x y : P → ℚ) : Prop where
  nonempty : r.regions ≠ []
  countsA : r.counts a = .ok (r.regions.map (fun p => ((x p : ℚ) : Num)))
  countsB : r.counts b = .ok (r.regions.map (fun p => ((y p : ℚ) : Num)))
  percentsA : r.percents a = .ok (r.regions.map (fun p => if 0 < x p + y p then ((x p / (x p + y p) : ℚ) : Num) else ⊥))
  total : r.totalVotes = (((r.regions.map (fun p => x p + y p)).sum : ℚ) : Num)
  overall : r.percentOverall a = if (r.regions.map (fun p => x p + y p)).sum = 0 then .error .zeroDivision
    else .ok (((r.regions.map x).sum / (r.regions.map (fun p => x p + y p)).sum : ℚ) : Num)

/-! ### Numbers -/

theorem numbers_coe (l : List ℚ) : numbers (l.map (fun q => ((q : ℚ) : Num))) = some l := by
  induction l with
  | nil => rfl
  | cons q l ih =>
    rw [List.map_cons]
    show (numbers (l.map _)).map (q :: ·) = _
    rw [ih]
    rfl

theorem numbers_none {l : List Num} (h : ⊥ ∈ l) : numbers l = none := by
  induction l with
  | nil => simp at h
  | cons q l ih =>
    rcases q with _ | q
    · rfl
    · rcases List.mem_cons.1 h with h | h
      · cases h
      · show (numbers l).map _ = _
        rw [ih h]
        rfl

/-- vote share of the first party -/
def share (x y : P → ℚ) (p : P) : ℚ := x p / (x p + y p)

theorem percents_numbers {l : List P} {x y : P → ℚ} (h : ∀ p ∈ l, 0 < x p + y p) :
    numbers (l.map (fun p => if 0 < x p + y p then ((x p / (x p + y p) : ℚ) : Num) else ⊥)) = some (l.map (share x y)) := by
  rw [← numbers_coe, List.map_map]
  congr 1
  apply List.map_congr_left
  intro p hp
  rw [if_pos (h p hp)]
  rfl

theorem share_swap {x y : P → ℚ} {p : P} (h : 0 < x p + y p) : share y x p = 1 - share x y p := by
  unfold share
  rw [add_comm (y p)]
  field_simp
  ring

theorem shares_swap {l : List P} {x y : P → ℚ} (h : ∀ p ∈ l, 0 < x p + y p) :
    l.map (share y x) = (l.map (share x y)).map (fun q => 1 - q) := by
  rw [List.map_map]
  exact List.map_congr_left (fun p hp => share_swap (h p hp))

theorem sum_pos_of {l : List P} {f : P → ℚ} (hne : l ≠ []) (h : ∀ p ∈ l, 0 < f p) : 0 < (l.map f).sum := by
  induction l with
  | nil => exact absurd rfl hne
  | cons p l ih =>
    simp only [List.map_cons, List.sum_cons]
    by_cases h0 : l = []
    · subst h0; simpa using h p List.mem_cons_self
    · exact add_pos (h p List.mem_cons_self) (ih h0 (fun q hq => h q (List.mem_cons_of_mem _ hq)))

/-! ### Wasted votes and the efficiency gap -/

/-- wasted votes on numbers: the loser's votes, and what the winner has above half of all votes -/
def wasted (x y : ℚ) : ℚ × ℚ := if y < x then (x - (x + y) / 2, y) else (x, y - (x + y) / 2)

theorem wastedVotes_coe (x y : ℚ) : wastedVotes (x : Num) (y : Num) = (((wasted x y).1 : Num), ((wasted x y).2 : Num)) := by
  unfold wastedVotes wasted
  have : Num.gt (x : Num) (y : Num) = decide (y < x) := rfl
  simp only [this]
  by_cases h : y < x
  · rw [if_pos (by simpa using h), if_pos h]; rfl
  · rw [if_neg (by simpa using h), if_neg h]; rfl

/-- **C51** The wasted votes of the two parties in a district sum to half of its votes, and neither is negative if no party has a negative
number of votes.  The loser wastes all votes, the winner those above half. -/
theorem C51_wasted (x y : ℚ) : ∃ u v : ℚ, wastedVotes (x : Num) (y : Num) = ((u : Num), (v : Num)) ∧ u + v = (x + y) / 2 ∧
    (0 ≤ x → 0 ≤ y → 0 ≤ u ∧ 0 ≤ v) ∧ (y < x → v = y) ∧ (x < y → u = x) := by
  refine ⟨_, _, wastedVotes_coe x y, ?_, fun hx hy => ?_, fun h => ?_, fun h => ?_⟩
  · unfold wasted; split <;> simp only <;> ring
  · unfold wasted; split
    · constructor <;> simp only <;> linarith
    · constructor <;> simp only <;> linarith
  · unfold wasted; rw [if_pos h]
  · unfold wasted; rw [if_neg (by linarith)]

/-- the efficiency gap on numbers -/
theorem efficiencyGap_eq {r : ElectionVal P} {a b : String} {x y : P → ℚ} (h : TwoParty r a b x y) :
    efficiencyGap r [a, b] = if (r.regions.map (fun p => x p + y p)).sum = 0 then .error .zeroDivision
      else .ok (((r.regions.map (fun p => (wasted (x p) (y p)).2 - (wasted (x p) (y p)).1)).sum /
        (r.regions.map (fun p => x p + y p)).sum : ℚ) : Num) := by
  unfold efficiencyGap
  simp only [List.mapM_cons, List.mapM_nil, h.countsA, h.countsB, bind, Except.bind, pure, Except.pure]
  have hz : (List.zipWith wastedVotes (r.regions.map (fun p => ((x p : ℚ) : Num))) (r.regions.map (fun p => ((y p : ℚ) : Num)))).map
      (fun w => Num.sub w.2 w.1) = (r.regions.map (fun p => (wasted (x p) (y p)).2 - (wasted (x p) (y p)).1)).map (fun q => ((q : ℚ) : Num)) := by
    rw [List.zipWith_map, List.zipWith_self, List.map_map, List.map_map]
    apply List.map_congr_left
    intro p _
    simp only [Function.comp, wastedVotes_coe]
    rfl
  rw [hz, ← coe_list_sum, h.total]
  unfold Num.div
  by_cases h0 : (r.regions.map (fun p => x p + y p)).sum = 0
  · rw [if_pos h0, h0]
    rfl
  · rw [if_neg h0, if_neg (by exact_mod_cast h0)]
    rfl

theorem sum_map_neg {l : List P} {f : P → ℚ} : (l.map (fun p => -f p)).sum = -(l.map f).sum := by
  induction l with
  | nil => simp
  | cons p l ih => simp only [List.map_cons, List.sum_cons, ih]; ring

theorem abs_sum_le {l : List P} {f g : P → ℚ} (h : ∀ p ∈ l, |f p| ≤ g p) : |(l.map f).sum| ≤ (l.map g).sum := by
  induction l with
  | nil => simp
  | cons p l ih =>
    simp only [List.map_cons, List.sum_cons]
    exact (abs_add_le _ _).trans (add_le_add (h p List.mem_cons_self) (ih (fun q hq => h q (List.mem_cons_of_mem _ hq))))

theorem sum_map_div {l : List P} {f : P → ℚ} {c : ℚ} : (l.map (fun p => f p / c)).sum = (l.map f).sum / c := by
  induction l with
  | nil => simp
  | cons p l ih => simp only [List.map_cons, List.sum_cons, ih]; ring

theorem sum_map_nonneg {l : List P} {f : P → ℚ} (h : ∀ p ∈ l, 0 ≤ f p) : 0 ≤ (l.map f).sum := by
  induction l with
  | nil => simp
  | cons p l ih =>
    simp only [List.map_cons, List.sum_cons]
    exact add_nonneg (h p List.mem_cons_self) (ih (fun q hq => h q (List.mem_cons_of_mem _ hq)))

/-- **C51** With nonnegative votes, not all zero, the efficiency gap lies between -1/2 and 1/2; with no votes at all it raises
`ZeroDivisionError`. -/
theorem C51_efficiency_gap_bound (r : ElectionVal P) (a b : String) (x y : P → ℚ) (h : TwoParty r a b x y)
    (hx : ∀ p ∈ r.regions, 0 ≤ x p) (hy : ∀ p ∈ r.regions, 0 ≤ y p) :
    (∃ g : ℚ, efficiencyGap r [a, b] = .ok ((g : ℚ) : Num) ∧ |g| ≤ 1 / 2) ∨
      (efficiencyGap r [a, b] = .error .zeroDivision ∧ ∀ p ∈ r.regions, x p = 0 ∧ y p = 0) := by
  rw [efficiencyGap_eq h]
  have hnn : ∀ p ∈ r.regions, 0 ≤ x p + y p := fun p hp => add_nonneg (hx p hp) (hy p hp)
  by_cases h0 : (r.regions.map (fun p => x p + y p)).sum = 0
  · rw [if_pos h0]
    refine .inr ⟨rfl, ?_⟩
    clear h
    generalize r.regions = l at *
    induction l with
    | nil => simp
    | cons q l ih =>
      simp only [List.map_cons, List.sum_cons] at h0
      have h1 := hnn q List.mem_cons_self
      have h2 := sum_map_nonneg (f := fun p => x p + y p) (fun p hp => hnn p (List.mem_cons_of_mem _ hp) : ∀ p ∈ l, _)
      have hq := hx q List.mem_cons_self
      have hq' := hy q List.mem_cons_self
      intro p hp
      rcases List.mem_cons.1 hp with rfl | hp
      · constructor <;> linarith
      · exact ih (fun p hp => hx p (List.mem_cons_of_mem _ hp)) (fun p hp => hy p (List.mem_cons_of_mem _ hp))
          (fun p hp => hnn p (List.mem_cons_of_mem _ hp)) (by linarith) p hp
  · rw [if_neg h0]
    refine .inl ⟨_, rfl, ?_⟩
    have hpos : 0 < (r.regions.map (fun p => x p + y p)).sum := lt_of_le_of_ne (sum_map_nonneg hnn) (Ne.symm h0)
    rw [abs_div, abs_of_pos hpos, div_le_iff₀ hpos]
    have := abs_sum_le (l := r.regions) (f := fun p => (wasted (x p) (y p)).2 - (wasted (x p) (y p)).1) (g := fun p => (x p + y p) / 2)
      (fun p hp => by
        have h1 := hx p hp
        have h2 := hy p hp
        rw [abs_le]
        unfold wasted
        split <;> simp only <;> constructor <;> linarith)
    rw [sum_map_div] at this
    linarith

/-- **C51** Swapping the parties negates the efficiency gap when no district is tied. -/
theorem C51_efficiency_gap_swap (r r' : ElectionVal P) (a b : String) (x y : P → ℚ) (h : TwoParty r a b x y) (h' : TwoParty r' b a y x)
    (hr : r'.regions = r.regions) (hties : ∀ p ∈ r.regions, x p ≠ y p) (g : ℚ) (hg : efficiencyGap r [a, b] = .ok ((g : ℚ) : Num)) :
    efficiencyGap r' [b, a] = .ok ((-g : ℚ) : Num) := by
  rw [efficiencyGap_eq h] at hg
  rw [efficiencyGap_eq h', hr]
  have hs : (r.regions.map (fun p => y p + x p)).sum = (r.regions.map (fun p => x p + y p)).sum := by
    simp only [add_comm]
  rw [hs]
  split at hg
  · cases hg
  · rename_i h0
    rw [if_neg h0]
    rw [Except.ok.injEq] at hg
    have hg' := WithBot.coe_injective hg
    rw [← hg', ← neg_div, ← sum_map_neg]
    congr 4
    apply List.map_congr_left
    intro p hp
    have := hties p hp
    unfold wasted
    rcases lt_trichotomy (x p) (y p) with hlt | heq | hgt
    · rw [if_pos hlt, if_neg (by linarith)]; simp only; ring
    · exact absurd heq this
    · rw [if_neg (by linarith), if_pos hgt]; simp only; ring

/-- **C51** With equal turnout in all districts the efficiency gap is the seat margin minus twice the vote margin (a tied district counts
as won by the second party). -/
theorem C51_efficiency_gap_formula (r : ElectionVal P) (a b : String) (x y : P → ℚ) (h : TwoParty r a b x y) (t : ℚ) (ht : 0 < t)
    (hturn : ∀ p ∈ r.regions, x p + y p = t) :
    efficiencyGap r [a, b] = .ok ((((r.regions.filter (fun p => y p < x p)).length / r.regions.length - 1 / 2) -
      2 * ((r.regions.map x).sum / (r.regions.map (fun p => x p + y p)).sum - 1 / 2) : ℚ) : Num) := by
  rw [efficiencyGap_eq h]
  have key : ∀ l : List P, (∀ p ∈ l, x p + y p = t) → (l.map (fun p => x p + y p)).sum = l.length * t ∧
      (l.map (fun p => (wasted (x p) (y p)).2 - (wasted (x p) (y p)).1)).sum =
        (l.filter (fun p => y p < x p)).length * t + l.length * t / 2 - 2 * (l.map x).sum := by
    intro l hl
    induction l with
    | nil => simp
    | cons p l ih =>
      obtain ⟨i1, i2⟩ := ih (fun q hq => hl q (List.mem_cons_of_mem _ hq))
      have hp := hl p List.mem_cons_self
      have hy : y p = t - x p := by linarith
      simp only [List.map_cons, List.sum_cons, List.length_cons, i1, i2]
      refine ⟨by push_cast; linarith, ?_⟩
      by_cases hlt : y p < x p
      · rw [List.filter_cons_of_pos (by simpa using hlt)]
        unfold wasted
        rw [if_pos hlt, hy, List.length_cons]
        push_cast
        ring
      · rw [List.filter_cons_of_neg (by simpa using hlt)]
        unfold wasted
        rw [if_neg hlt, hy]
        push_cast
        ring
  obtain ⟨k1, k2⟩ := key r.regions hturn
  have hn : (0 : ℚ) < r.regions.length := by exact_mod_cast List.length_pos_of_ne_nil h.nonempty
  rw [k1, k2, if_neg (mul_pos hn ht).ne']
  congr 2
  field_simp
  ring

/-! ### Sorted lists -/

theorem pySorted_perm (l : List ℚ) : (pySorted l).Perm l := List.perm_insertionSort _ _

theorem pySorted_length (l : List ℚ) : (pySorted l).length = l.length := (pySorted_perm l).length_eq

theorem pySorted_pairwise (l : List ℚ) : (pySorted l).Pairwise (· ≤ ·) := List.pairwise_insertionSort (· ≤ ·) l

theorem pySorted_eq {l s : List ℚ} (h : s.Perm l) (hs : s.Pairwise (· ≤ ·)) : pySorted l = s :=
  ((pySorted_perm l).trans h.symm).eq_of_pairwise' (r := (· ≤ ·)) (pySorted_pairwise l) hs

theorem pySorted_one_sub (l : List ℚ) : pySorted (l.map (fun q => 1 - q)) = ((pySorted l).map (fun q => 1 - q)).reverse := by
  apply pySorted_eq
  · exact (List.reverse_perm _).trans ((pySorted_perm l).map _)
  · rw [List.pairwise_reverse, List.pairwise_map]
    exact (pySorted_pairwise l).imp (fun h => by linarith)

theorem getD_map {l : List ℚ} {f : ℚ → ℚ} {i : ℕ} (h : i < l.length) : (l.map f).getD i 0 = f (l.getD i 0) := by
  rw [List.getD_eq_getElem _ _ (by simpa using h), List.getD_eq_getElem _ _ h, List.getElem_map]

theorem getD_reverse {l : List ℚ} {i : ℕ} (h : i < l.length) : l.reverse.getD i 0 = l.getD (l.length - 1 - i) 0 := by
  rw [List.getD_eq_getElem _ _ (by simpa using h), List.getD_eq_getElem _ _ (by omega), List.getElem_reverse]

theorem numpyMedian_one_sub {l : List ℚ} (h : l ≠ []) : numpyMedian (l.map (fun q => 1 - q)) = 1 - numpyMedian l := by
  have hl := List.length_pos_of_ne_nil h
  unfold numpyMedian
  rw [pySorted_one_sub, List.length_map]
  have hlen : ((pySorted l).map (fun q => 1 - q)).length = l.length := by rw [List.length_map, pySorted_length]
  rw [getD_reverse (by rw [hlen]; omega), getD_reverse (by rw [hlen]; omega), hlen,
    getD_map (by rw [pySorted_length]; omega), getD_map (by rw [pySorted_length]; omega),
    show l.length - 1 - (l.length - 1) / 2 = l.length / 2 by omega, show l.length - 1 - l.length / 2 = (l.length - 1) / 2 by omega]
  ring

theorem sum_one_sub (l : List ℚ) : (l.map (fun q => 1 - q)).sum = l.length - l.sum := by
  induction l with
  | nil => simp
  | cons q l ih => simp only [List.map_cons, List.sum_cons, List.length_cons, ih]; push_cast; ring

theorem numpyMean_one_sub {l : List ℚ} (h : l ≠ []) : numpyMean (l.map (fun q => 1 - q)) = 1 - numpyMean l := by
  have hl : (l.length : ℚ) ≠ 0 := by exact_mod_cast (List.length_pos_of_ne_nil h).ne'
  unfold numpyMean
  rw [sum_one_sub, List.length_map]
  field_simp

/-! ### Mean-median, mean-thirdian, bias -/

theorem meanMedian_eq {r : ElectionVal P} {a b : String} {x y : P → ℚ} (h : TwoParty r a b x y) (hpos : ∀ p ∈ r.regions, 0 < x p + y p) :
    meanMedian r [a, b] = .ok (((numpyMedian (r.regions.map (share x y)) - numpyMean (r.regions.map (share x y)) : ℚ)) : Num) := by
  unfold meanMedian firstParty
  simp only [bind, Except.bind, h.percentsA, pure, Except.pure, percents_numbers hpos]
  rw [if_neg (by simpa using h.nonempty)]

/-- What the median is: at least half of the numbers are at most it, and at least half of them are at least it. -/
theorem C51_median (l : List ℚ) (h : l ≠ []) :
    l.length ≤ 2 * (l.filter (fun q => q ≤ numpyMedian l)).length ∧ l.length ≤ 2 * (l.filter (fun q => numpyMedian l ≤ q)).length := by
  have hl := List.length_pos_of_ne_nil h
  have hlen := pySorted_length l
  have hi : (l.length - 1) / 2 < (pySorted l).length := by omega
  have hj : l.length / 2 < (pySorted l).length := by omega
  have hmono : ∀ i j : ℕ, (hi : i < (pySorted l).length) → (hj : j < (pySorted l).length) → i ≤ j → (pySorted l)[i] ≤ (pySorted l)[j] := by
    intro i j hi hj hij
    rcases Nat.lt_or_eq_of_le hij with h | rfl
    · exact List.pairwise_iff_getElem.1 (pySorted_pairwise l) i j hi hj h
    · exact le_refl _
  have hm : numpyMedian l = ((pySorted l)[(l.length - 1) / 2] + (pySorted l)[l.length / 2]) / 2 := by
    unfold numpyMedian
    rw [List.getD_eq_getElem _ _ hi, List.getD_eq_getElem _ _ hj]
  have hij := hmono _ _ hi hj (by omega)
  rw [← ((pySorted_perm l).filter _).length_eq, ← ((pySorted_perm l).filter (fun q => decide (numpyMedian l ≤ q))).length_eq]
  constructor
  · have h1 : ((pySorted l).take ((l.length - 1) / 2 + 1)).filter (fun q => decide (q ≤ numpyMedian l)) =
        (pySorted l).take ((l.length - 1) / 2 + 1) := by
      rw [List.filter_eq_self]
      intro q hq
      obtain ⟨i, hi', rfl⟩ := List.mem_iff_getElem.1 hq
      rw [List.length_take] at hi'
      rw [List.getElem_take, decide_eq_true_iff, hm]
      have := hmono i _ (by omega) hi (by omega)
      linarith
    have h2 := ((List.take_sublist ((l.length - 1) / 2 + 1) (pySorted l)).filter (fun q => decide (q ≤ numpyMedian l))).length_le
    rw [h1, List.length_take] at h2
    omega
  · have h1 : ((pySorted l).drop (l.length / 2)).filter (fun q => decide (numpyMedian l ≤ q)) = (pySorted l).drop (l.length / 2) := by
      rw [List.filter_eq_self]
      intro q hq
      obtain ⟨i, hi', rfl⟩ := List.mem_iff_getElem.1 hq
      rw [List.length_drop] at hi'
      rw [List.getElem_drop, decide_eq_true_iff, hm]
      have := hmono _ (l.length / 2 + i) hj (by omega) (by omega)
      linarith
    have h2 := ((List.drop_sublist (l.length / 2) (pySorted l)).filter (fun q => decide (numpyMedian l ≤ q))).length_le
    rw [h1, List.length_drop] at h2
    omega

/-- **C51** `mean_median` is the median minus the mean of the first party's shares, and swapping the parties negates it (every district has
votes). -/
theorem C51_mean_median_swap (r r' : ElectionVal P) (a b : String) (x y : P → ℚ) (h : TwoParty r a b x y) (h' : TwoParty r' b a y x)
    (hr : r'.regions = r.regions) (hpos : ∀ p ∈ r.regions, 0 < x p + y p) :
    ∃ g : ℚ, meanMedian r [a, b] = .ok ((g : ℚ) : Num) ∧ meanMedian r' [b, a] = .ok ((-g : ℚ) : Num) := by
  refine ⟨_, meanMedian_eq h hpos, ?_⟩
  rw [meanMedian_eq h' (by rw [hr]; intro p hp; rw [add_comm]; exact hpos p hp), hr, shares_swap hpos,
    numpyMedian_one_sub (by simpa using h.nonempty), numpyMean_one_sub (by simpa using h.nonempty)]
  congr 2
  ring

/-- **C51** The index used by `mean_thirdian` is an existing one for every positive number of districts, and it is a third of that number
up to 1/3. -/
theorem C51_thirdian_index (n : ℕ) (h : 0 < n) : thirdianIndex n < n ∧ 3 * thirdianIndex n ≤ n + 1 ∧ n ≤ 3 * thirdianIndex n + 1 := by
  have key : round ((n : ℚ) / 3) = (((n + 1) / 3 : ℕ) : ℤ) := by
    rw [round_eq, Int.floor_eq_iff]
    have h1 : 3 * ((n + 1) / 3) ≤ n + 1 := Nat.mul_div_le _ _
    have h2 : n + 1 < 3 * ((n + 1) / 3) + 3 := by omega
    generalize (n + 1) / 3 = k at *
    have h1' : (3 : ℚ) * (k : ℚ) ≤ n + 1 := by exact_mod_cast h1
    have h2' : (n : ℚ) + 1 + 1 ≤ 3 * (k : ℚ) + 3 := by exact_mod_cast h2
    constructor
    · push_cast; linarith
    · push_cast; linarith
  have : thirdianIndex n = (n + 1) / 3 := by
    unfold thirdianIndex
    rw [key]
    rfl
  omega

/-- **C51** `mean_thirdian` always returns: it never indexes a district that does not exist. -/
theorem C51_mean_thirdian_total (r : ElectionVal P) (a b : String) (x y : P → ℚ) (h : TwoParty r a b x y) :
    ∃ g, meanThirdian r [a, b] = .ok g := by
  unfold meanThirdian firstParty
  simp only [bind, Except.bind, h.percentsA]
  rw [if_neg]
  · exact ⟨_, rfl⟩
  · rw [List.length_map]
    have := (C51_thirdian_index r.regions.length (List.length_pos_of_ne_nil h.nonempty)).1
    omega

theorem exists_le_mean {l : List ℚ} (h : l ≠ []) : ∃ q ∈ l, q ≤ numpyMean l := by
  by_contra hc
  push Not at hc
  have key : ∀ (m : ℚ) (l : List ℚ), (∀ q ∈ l, m < q) → l ≠ [] → (l.length : ℚ) * m < l.sum := by
    intro m l hl hne
    induction l with
    | nil => exact absurd rfl hne
    | cons q l ih =>
      have hq := hl q List.mem_cons_self
      rw [List.sum_cons, List.length_cons]
      push_cast
      by_cases h0 : l = []
      · subst h0; simp; linarith
      · have := ih (fun q hq => hl q (List.mem_cons_of_mem _ hq)) h0
        linarith
  have := key _ _ hc h
  have hl : (0 : ℚ) < l.length := by exact_mod_cast List.length_pos_of_ne_nil h
  unfold numpyMean at this
  rw [mul_div_cancel₀ _ hl.ne'] at this
  exact lt_irrefl _ this

/-- **C51** `partisan_bias` lies in `[-1/2, 1/2)`: not every district can be above the mean.  If some district has no votes it is -1/2. -/
theorem C51_partisan_bias (r : ElectionVal P) (a b : String) (x y : P → ℚ) (h : TwoParty r a b x y) :
    ∃ g : ℚ, partisanBias r [a, b] = .ok ((g : ℚ) : Num) ∧ -(1 / 2) ≤ g ∧ g < 1 / 2 ∧
      ((∀ p ∈ r.regions, 0 < x p + y p) → g = (r.regions.filter
        (fun p => numpyMean (r.regions.map (share x y)) < share x y p)).length / (r.regions.length : ℚ) - 1 / 2) ∧
      ((∃ p ∈ r.regions, x p + y p ≤ 0) → g = -(1 / 2)) := by
  unfold partisanBias firstParty
  simp only [bind, Except.bind, h.percentsA, List.length_map]
  have hn : (0 : ℚ) < r.regions.length := by exact_mod_cast List.length_pos_of_ne_nil h.nonempty
  rw [if_neg (List.length_pos_of_ne_nil h.nonempty).ne']
  by_cases hpos : ∀ p ∈ r.regions, 0 < x p + y p
  · rw [percents_numbers hpos]
    have hl : (List.filter (fun q => decide (numpyMean (r.regions.map (share x y)) < q)) (r.regions.map (share x y))).length =
        (r.regions.filter (fun p => numpyMean (r.regions.map (share x y)) < share x y p)).length := by
      rw [List.filter_map, List.length_map]
      rfl
    simp only [hl]
    refine ⟨_, rfl, ?_, ?_, fun _ => rfl, fun ⟨p, hp, hle⟩ => absurd (hpos p hp) (by linarith)⟩
    · have : (0 : ℚ) ≤ (r.regions.filter (fun p => numpyMean (r.regions.map (share x y)) < share x y p)).length / r.regions.length := by
        positivity
      linarith
    · have : ((r.regions.filter (fun p => numpyMean (r.regions.map (share x y)) < share x y p)).length : ℚ) < r.regions.length := by
        obtain ⟨q, hq, hle⟩ := exists_le_mean (l := r.regions.map (share x y)) (by simpa using h.nonempty)
        obtain ⟨p, hp, rfl⟩ := List.mem_map.1 hq
        have := List.length_filter_lt_length_iff_exists (l := r.regions)
          (p := fun p => decide (numpyMean (r.regions.map (share x y)) < share x y p))
        exact_mod_cast this.2 ⟨p, hp, by simpa using hle⟩
      have := (div_lt_one hn).2 this
      linarith
  · have hex : ∃ p ∈ r.regions, x p + y p ≤ 0 := by push Not at hpos; exact hpos
    obtain ⟨p, hp, hle⟩ := hex
    rw [numbers_none (List.mem_map.2 ⟨p, hp, by rw [if_neg (by linarith)]⟩)]
    refine ⟨_, rfl, ?_, ?_, fun h => absurd h hpos, fun _ => ?_⟩ <;> simp

/-! ### The partisan Gini score -/

theorem giniScore_eq (o : ℚ) (l : List ℚ) : giniScore o l =
    (List.zipWith (fun u v => |2 * o - u - v|) (pySorted l) (pySorted l).reverse).sum / l.length := by
  unfold giniScore
  simp only
  rw [List.map_map, List.map_reverse, List.map_reverse, List.reverse_reverse, ← List.map_reverse, List.zipWith_map, List.zipWith_comm]
  congr 3
  funext u v
  simp only [Function.comp]
  congr 1
  ring

theorem giniScore_one_sub (o : ℚ) (l : List ℚ) : giniScore (1 - o) (l.map (fun q => 1 - q)) = giniScore o l := by
  rw [giniScore_eq, giniScore_eq, pySorted_one_sub, List.reverse_reverse, List.length_map, ← List.map_reverse, List.zipWith_map,
    List.zipWith_comm]
  congr 3
  funext u v
  rw [← abs_neg]
  congr 1
  ring

theorem partisanGini_eq {r : ElectionVal P} {a b : String} {x y : P → ℚ} (h : TwoParty r a b x y)
    (hpos : ∀ p ∈ r.regions, 0 < x p + y p) : partisanGini r [a, b] =
      .ok ((giniScore ((r.regions.map x).sum / (r.regions.map (fun p => x p + y p)).sum) (r.regions.map (share x y)) : ℚ) : Num) := by
  unfold partisanGini firstParty
  simp only [bind, Except.bind, h.percentsA, h.overall]
  rw [if_neg (sum_pos_of h.nonempty hpos).ne']
  simp only [List.length_map, percents_numbers hpos]
  rw [if_neg (List.length_pos_of_ne_nil h.nonempty).ne']
  rfl

/-- **C51** Swapping the parties does not change the partisan Gini score (every district has votes). -/
theorem C51_gini_symmetric (r r' : ElectionVal P) (a b : String) (x y : P → ℚ) (h : TwoParty r a b x y) (h' : TwoParty r' b a y x)
    (hr : r'.regions = r.regions) (hpos : ∀ p ∈ r.regions, 0 < x p + y p) :
    ∃ g : ℚ, partisanGini r [a, b] = .ok ((g : ℚ) : Num) ∧ partisanGini r' [b, a] = .ok ((g : ℚ) : Num) := by
  refine ⟨_, partisanGini_eq h hpos, ?_⟩
  rw [partisanGini_eq h' (by rw [hr]; intro p hp; rw [add_comm]; exact hpos p hp), hr, shares_swap hpos, ← giniScore_one_sub]
  have h0 := (sum_pos_of h.nonempty hpos).ne'
  have hs : (r.regions.map (fun p => y p + x p)).sum = (r.regions.map (fun p => x p + y p)).sum := by
    simp only [add_comm]
  have hs2 : (r.regions.map (fun p => x p + y p)).sum = (r.regions.map x).sum + (r.regions.map y).sum := List.sum_map_add
  rw [hs]
  congr 3
  · rw [hs2] at h0 ⊢
    field_simp
    ring
  · rw [List.map_map]
    conv_rhs => rw [← List.map_id (r.regions.map (share x y))]
    apply List.map_congr_left
    intro p _
    simp

/-! ### Its range (C68) -/

theorem gini_sum_le {m : ℚ} (hm0 : 0 ≤ m) (hm2 : m ≤ 2) : ∀ A B : List ℚ, A.length = B.length → (∀ q ∈ A, 0 ≤ q ∧ q ≤ 1) → (∀ q ∈ B, 0 ≤ q ∧ q ≤ 1) →
    (List.zipWith (fun u v => |m - u - v|) A B).sum ≤ A.length * m + (1 - m) * (A.sum + B.sum)
  | [], [], _, _, _ => by simp
  | [], _ :: _, h, _, _ => by simp at h
  | _ :: _, [], h, _, _ => by simp at h
  | u :: A, v :: B, h, hA, hB => by
    have ih := gini_sum_le hm0 hm2 A B (by simpa using h) (fun q hq => hA q (List.mem_cons_of_mem _ hq))
      (fun q hq => hB q (List.mem_cons_of_mem _ hq))
    obtain ⟨u0, u1⟩ := hA u List.mem_cons_self
    obtain ⟨v0, v1⟩ := hB v List.mem_cons_self
    simp only [List.zipWith_cons_cons, List.sum_cons, List.length_cons]
    have key : |m - u - v| ≤ m + (1 - m) * (u + v) := by
      rw [abs_le]
      constructor <;> nlinarith [mul_nonneg hm0 (add_nonneg u0 v0), mul_nonneg hm0 (by linarith : 0 ≤ 2 - u - v),
        mul_nonneg (by linarith : 0 ≤ 2 - m) (add_nonneg u0 v0)]
    push_cast
    linarith

theorem gini_sum_le_two {m : ℚ} (hm0 : 0 ≤ m) (hm2 : m ≤ 2) : ∀ A B : List ℚ, A.length = B.length → (∀ q ∈ A, 0 ≤ q ∧ q ≤ 1) → (∀ q ∈ B, 0 ≤ q ∧ q ≤ 1) →
    0 ≤ (List.zipWith (fun u v => |m - u - v|) A B).sum ∧ (List.zipWith (fun u v => |m - u - v|) A B).sum ≤ A.length * 2
  | [], [], _, _, _ => by simp
  | [], _ :: _, h, _, _ => by simp at h
  | _ :: _, [], h, _, _ => by simp at h
  | u :: A, v :: B, h, hA, hB => by
    obtain ⟨i1, i2⟩ := gini_sum_le_two hm0 hm2 A B (by simpa using h) (fun q hq => hA q (List.mem_cons_of_mem _ hq))
      (fun q hq => hB q (List.mem_cons_of_mem _ hq))
    obtain ⟨u0, u1⟩ := hA u List.mem_cons_self
    obtain ⟨v0, v1⟩ := hB v List.mem_cons_self
    simp only [List.zipWith_cons_cons, List.sum_cons, List.length_cons]
    have k0 := abs_nonneg (m - u - v)
    have key : |m - u - v| ≤ 2 := by rw [abs_le]; constructor <;> linarith
    push_cast
    constructor <;> linarith

theorem share_mem {x y : P → ℚ} {p : P} (hx : 0 ≤ x p) (hy : 0 ≤ y p) (h : 0 < x p + y p) : 0 ≤ share x y p ∧ share x y p ≤ 1 := by
  unfold share
  exact ⟨div_nonneg hx h.le, (div_le_one h).2 (by linarith)⟩

/-- **C68** (partial) With nonnegative votes and some votes in every district the partisan Gini score lies between 0 and 2; it is at most 1,
as the comment at partisan.py:145-146 says, when the statewide share is the mean of the district shares, in particular with equal turnout
in all districts.  What is missing: `≤ 1` for other elections, which is false, see `C68_violation`. -/
theorem C68_gini_range_partial (r : ElectionVal P) (a b : String) (x y : P → ℚ) (h : TwoParty r a b x y)
    (hx : ∀ p ∈ r.regions, 0 ≤ x p) (hy : ∀ p ∈ r.regions, 0 ≤ y p) (hpos : ∀ p ∈ r.regions, 0 < x p + y p) :
    ∃ g : ℚ, partisanGini r [a, b] = .ok ((g : ℚ) : Num) ∧ 0 ≤ g ∧ g ≤ 2 ∧
      ((r.regions.map x).sum / (r.regions.map (fun p => x p + y p)).sum = (r.regions.map (share x y)).sum / r.regions.length → g ≤ 1) := by
  refine ⟨_, partisanGini_eq h hpos, ?_⟩
  have ht := sum_pos_of h.nonempty hpos
  have hn : (0 : ℚ) < r.regions.length := by exact_mod_cast List.length_pos_of_ne_nil h.nonempty
  set o := (r.regions.map x).sum / (r.regions.map (fun p => x p + y p)).sum with ho
  have o0 : 0 ≤ o := div_nonneg (sum_map_nonneg hx) ht.le
  have o1 : o ≤ 1 := by
    rw [ho, div_le_one ht, show (r.regions.map (fun p => x p + y p)).sum = (r.regions.map x).sum + (r.regions.map y).sum from List.sum_map_add]
    linarith [sum_map_nonneg hy]
  rw [giniScore_eq]
  have hA : ∀ q ∈ pySorted (r.regions.map (share x y)), 0 ≤ q ∧ q ≤ 1 := by
    intro q hq
    obtain ⟨p, hp, rfl⟩ := List.mem_map.1 ((pySorted_perm _).mem_iff.1 hq)
    exact share_mem (hx p hp) (hy p hp) (hpos p hp)
  have hB : ∀ q ∈ (pySorted (r.regions.map (share x y))).reverse, 0 ≤ q ∧ q ≤ 1 := fun q hq => hA q (List.mem_reverse.1 hq)
  have hl : (pySorted (r.regions.map (share x y))).length = r.regions.length := by rw [pySorted_length, List.length_map]
  obtain ⟨b0, b2⟩ := gini_sum_le_two (m := 2 * o) (by linarith) (by linarith) _ _ (by rw [List.length_reverse]) hA hB
  have b1 := gini_sum_le (m := 2 * o) (by linarith) (by linarith) _ _ (by rw [List.length_reverse]) hA hB
  rw [hl] at b1 b2
  rw [List.length_map]
  refine ⟨div_nonneg b0 hn.le, (div_le_iff₀ hn).2 (by linarith), fun hmean => (div_le_iff₀ hn).2 ?_⟩
  rw [List.sum_reverse, (pySorted_perm _).sum_eq] at b1
  have hs : (r.regions.map (share x y)).sum = o * r.regions.length := by rw [hmean]; field_simp
  rw [hs] at b1
  have : (r.regions.length : ℚ) * (2 * o) + (1 - 2 * o) * (o * r.regions.length + o * r.regions.length) = r.regions.length * (1 - (1 - 2 * o) ^ 2) := by ring
  rw [this] at b1
  have := mul_nonneg hn.le (sq_nonneg (1 - 2 * o))
  linarith

/-- Equal turnout is a case of the condition of `C68_gini_range_partial`. -/
theorem equal_turnout_mean {l : List P} {x y : P → ℚ} {t : ℚ} (ht : 0 < t) (hl : l ≠ []) (hturn : ∀ p ∈ l, x p + y p = t) :
    (l.map x).sum / (l.map (fun p => x p + y p)).sum = (l.map (share x y)).sum / l.length := by
  have h1 : l.map (fun p => x p + y p) = l.map (fun _ => t) := List.map_congr_left hturn
  have h2 : l.map (share x y) = l.map (fun p => x p / t) := List.map_congr_left (fun p hp => by unfold share; rw [hturn p hp])
  have hn : (0 : ℚ) < l.length := by exact_mod_cast List.length_pos_of_ne_nil hl
  rw [h1, h2, sum_map_div, List.map_const', List.sum_replicate, nsmul_eq_mul]
  field_simp

/-! ### The results of an `Election` updater are of this form -/

section
variable {V : Type} [LinearOrder V] {D : GraphData V} {ups : List Key} {ops : List (Op V P)}

/-- Whatever the history, the value of an election updater with two parties is `TwoParty` for the votes in the districts. -/
theorem twoParty_of_lookup (hD : D.graph.WF) (hops : ∀ op ∈ ops, op.WF) {p : ℕ} {v : View V P}
    (hv : (Heap.after D ups ops).frame.view p = some v) (limit : ℕ) (a b ca cb : String) (hab : a ≠ b) (q : String → V → ℚ)
    (hqa : ∀ n, D.col ca n = ((q ca n : ℚ) : Num)) (hqb : ∀ n, D.col cb n = ((q cb n : ℚ) : Num)) (hne : v.assignment.parts.keys ≠ [])
    (val : Val V P) (hx : (Heap.after D ups ops).lookup p (.election [(a, ca), (b, cb)]) limit = .ok val) :
    ∃ r, val = .election r ∧ r.regions = v.assignment.parts.keys ∧
      TwoParty r a b (fun part => votesIn q ca (v.assignment.partOf part)) (fun part => votesIn q cb (v.assignment.partOf part)) := by
  obtain ⟨hi, hd, -⟩ := after_inv (P := P) (ups := ups) hD hops
  have hc := hi.frame.coherent p v hv
  have hcov := hi.frame.covers p v hv
  rw [hd] at hcov
  obtain ⟨r, rfl, hr, h1, -, h3, h4, h5⟩ := C11_election_exact hD hops hv limit [(a, ca), (b, cb)] (by simpa using hab) q
    (by simp only [List.mem_cons, List.not_mem_nil, or_false]; rintro pc (rfl | rfl) <;> assumption) val hx
  have hall : ∀ s, allVotesIn q [(a, ca), (b, cb)] s = votesIn q ca s + votesIn q cb s := by
    intro s; unfold allVotesIn; simp
  have hval : ∀ f : Finset V → ℚ, v.assignment.parts.values.map f = v.assignment.parts.keys.map (fun k => f (v.assignment.partOf k)) := by
    intro f
    unfold Dict.keys Dict.values
    rw [List.map_map, List.map_map]
    apply List.map_congr_left
    intro e he
    simp only [Function.comp]
    rw [get?_partOf (Dict.get?_of_mem_entries hc.parts_wf (k := e.1) (v := e.2) he)]
  have hsum : ∀ f : V → ℚ, (v.assignment.parts.keys.map (fun k => (v.assignment.partOf k).sum f)).sum = D.graph.nodes.sum f := by
    intro f
    rw [← sum_parts hc hcov f, ← hval (fun s => s.sum f)]
    unfold Dict.values
    rw [List.map_map]
    rfl
  have hsa : (v.assignment.parts.keys.map (fun k => votesIn q ca (v.assignment.partOf k))).sum = votesIn q ca D.graph.nodes := hsum _
  have hsb : (v.assignment.parts.keys.map (fun k => votesIn q cb (v.assignment.partOf k))).sum = votesIn q cb D.graph.nodes := hsum _
  have hst : (v.assignment.parts.keys.map (fun k => votesIn q ca (v.assignment.partOf k) + votesIn q cb (v.assignment.partOf k))).sum =
      allVotesIn q [(a, ca), (b, cb)] D.graph.nodes := by
    rw [hall, ← hsa, ← hsb]
    exact List.sum_map_add
  have hcounts : ∀ pc ∈ [(a, ca), (b, cb)], r.counts pc.1 =
      .ok (r.regions.map (fun k => ((votesIn q pc.2 (v.assignment.partOf k) : ℚ) : Num))) := by
    intro pc hpc
    rw [h3 pc hpc, hr]
    congr 1
    have := congrArg (List.map (fun z => ((z : ℚ) : Num))) (hval (votesIn q pc.2))
    rw [List.map_map, List.map_map] at this
    exact this
  refine ⟨r, rfl, hr, ?_, ?_, ?_, ?_, ?_, ?_⟩
  · rw [hr]; exact hne
  · exact hcounts (a, ca) (by simp)
  · exact hcounts (b, cb) (by simp)
  · unfold ElectionVal.percents
    apply Py.mapM_ok
    intro k hk
    rw [hr] at hk
    obtain ⟨s, hs⟩ := Dict.mem_keys_iff.1 hk
    rw [(h1 (a, ca) (by simp) k s hs).2, hall, get?_partOf hs]
  · rw [h4, hr, hst]
  · rw [hr, hst, hsa]
    exact h5 (a, ca) (by simp)

end

/-! ### Examples and witnesses -/

/-- election results from a table of districts with the votes for "D" and "R" -/
def tableResults (rows : List (ℕ × ℚ × ℚ)) : ElectionVal ℕ :=
  ⟨⟨[("D", ⟨rows.map (fun r => (r.1, ((r.2.1 : ℚ) : Num)))⟩), ("R", ⟨rows.map (fun r => (r.1, ((r.2.2 : ℚ) : Num)))⟩)]⟩,
    rows.map (·.1), ⟨rows.map (fun r => (r.1, ((r.2.1 + r.2.2 : ℚ) : Num)))⟩⟩

def exTable : List (ℕ × ℚ × ℚ) := [(1, 60, 40), (2, 45, 55), (3, 90, 10)]

def exX : ℕ → ℚ := fun p => if p = 1 then 60 else if p = 2 then 45 else 90

def exY : ℕ → ℚ := fun p => if p = 1 then 40 else if p = 2 then 55 else 10

/-- the example satisfies the hypotheses of all theorems above: no ties, votes in every district, equal turnout -/
example : TwoParty (tableResults exTable) "D" "R" exX exY ∧ TwoParty (tableResults exTable) "R" "D" exY exX ∧
    (∀ p ∈ (tableResults exTable).regions, 0 ≤ exX p ∧ 0 ≤ exY p ∧ 0 < exX p + exY p ∧ exX p ≠ exY p ∧ exX p + exY p = 100) := by
  refine ⟨?_, ?_, by decide +kernel⟩ <;> constructor <;> decide +kernel

example : efficiencyGap (tableResults exTable) ["D", "R"] = .ok ((-2 / 15 : ℚ) : Num) := by decide +kernel
example : efficiencyGap (tableResults exTable) ["R", "D"] = .ok ((2 / 15 : ℚ) : Num) := by decide +kernel
example : meanMedian (tableResults exTable) ["D", "R"] = .ok ((-1 / 20 : ℚ) : Num) := by decide +kernel
example : meanMedian (tableResults exTable) ["R", "D"] = .ok ((1 / 20 : ℚ) : Num) := by decide +kernel
example : meanThirdian (tableResults exTable) ["D", "R"] = .ok ((-1 / 20 : ℚ) : Num) := by decide +kernel
example : partisanBias (tableResults exTable) ["D", "R"] = .ok ((-1 / 6 : ℚ) : Num) := by decide +kernel
example : partisanGini (tableResults exTable) ["D", "R"] = .ok ((1 / 15 : ℚ) : Num) := by decide +kernel
example : partisanGini (tableResults exTable) ["R", "D"] = .ok ((1 / 15 : ℚ) : Num) := by decide +kernel

/-- Remark: in a tied district the first party is charged with all its votes, whichever it is, so with ties the efficiency gap need not be
negated by swapping the parties. -/
theorem C51_ties_remark : efficiencyGap (tableResults [(1, 50, 50)]) ["D", "R"] = .ok ((-1 / 2 : ℚ) : Num) ∧
    efficiencyGap (tableResults [(1, 50, 50)]) ["R", "D"] = .ok ((-1 / 2 : ℚ) : Num) := by
  constructor <;> decide +kernel

/-- three districts of one node each; all 100 voters of the first vote for "D", the only voter of each of the others for "R" -/
def giniData : GraphData ℕ where
  graph := ⟨{0, 1, 2}, {(0, 1), (1, 2)}⟩
  col f v := if f = "D" then (if v = 0 then ((100 : ℚ) : Num) else ((0 : ℚ) : Num)) else (if v = 0 then ((0 : ℚ) : Num) else ((1 : ℚ) : Num))
  boundaryNode _ := true
  boundaryPerim _ := 1
  sharedPerim _ := 1
  region _ _ := "A"

/-- **C68** (violation) The partisan Gini score of a plan can exceed 1: with the votes of `giniData` it is 22/17. -/
theorem C68_violation : ∃ (r : ElectionVal ℕ) (g : ℚ),
    (Heap.after giniData [.election [("D", "D"), ("R", "R")]] [Op.create (⟨[(0, 1), (1, 2), (2, 3)]⟩ : Dict ℕ ℕ)]).lookup 0
      (.election [("D", "D"), ("R", "R")]) 9 = .ok (.election r) ∧
    partisanGini r ["D", "R"] = .ok ((g : ℚ) : Num) ∧ 1 < g := by
  refine ⟨tableResults [(1, 100, 0), (2, 0, 1), (3, 0, 1)], 22 / 17, ?_, ?_, ?_⟩ <;> decide +kernel

end GC

import Verif.Model.Gingleator
import Mathlib.Tactic.Linarith
import Mathlib.Tactic.FieldSimp
import Mathlib.Algebra.Order.BigOperators.Group.List
import Mathlib.Algebra.BigOperators.Group.List.Basic

/-!
# Gingleator scores (C50)
-/

set_option linter.unusedSectionVars false
set_option autoImplicit false

namespace GC

variable {P : Type} [DecidableEq P]

/-- **C50** `num_opportunity_dists` counts the districts at or above the threshold. -/
theorem C50_count (shares : List ℚ) (threshold : ℚ) :
    numOpportunity shares threshold = (shares.filter (fun v => threshold ≤ v)).length := by
  unfold numOpportunity
  induction shares with
  | nil => rfl
  | cons x xs ih =>
    rw [List.map_cons, List.sum_cons, ih]
    by_cases h : threshold ≤ x
    · rw [List.filter_cons_of_pos (by simpa using h), if_pos h, List.length_cons]; omega
    · rw [List.filter_cons_of_neg (by simpa using h), if_neg h]; omega

/-- the share of the best district below the threshold -/
def IsNext (shares : List ℚ) (threshold x : ℚ) : Prop := x ∈ shares ∧ x < threshold ∧ ∀ y ∈ shares, y < threshold → y ≤ x

theorem foldl_max {l : List ℚ} {x : ℚ} : (l.foldl max x = x ∨ l.foldl max x ∈ l) ∧ x ≤ l.foldl max x ∧ ∀ y ∈ l, y ≤ l.foldl max x := by
  induction l generalizing x with
  | nil => simp
  | cons z l ih =>
    obtain ⟨h1, h2, h3⟩ := ih (x := max x z)
    rw [List.foldl_cons]
    refine ⟨?_, (le_max_left x z).trans h2, fun y hy => ?_⟩
    · rcases h1 with h1 | h1
      · rw [h1]
        rcases max_choice x z with h | h <;> rw [h] <;> simp
      · exact .inr (List.mem_cons_of_mem _ h1)
    · rcases List.mem_cons.1 hy with rfl | hy
      · exact (le_max_right x y).trans h2
      · exact h3 y hy

theorem pyMax_ok {l : List ℚ} {x : ℚ} (h : pyMax l = .ok x) : x ∈ l ∧ ∀ y ∈ l, y ≤ x := by
  rcases l with _ | ⟨z, l⟩
  · cases h
  · simp only [pyMax, Except.ok.injEq] at h
    subst h
    obtain ⟨h1, h2, h3⟩ := foldl_max (l := l) (x := z)
    refine ⟨?_, fun y hy => ?_⟩
    · rcases h1 with h1 | h1
      · rw [h1]; exact List.mem_cons_self
      · exact List.mem_cons_of_mem _ h1
    · rcases List.mem_cons.1 hy with rfl | hy
      · exact h2
      · exact h3 y hy

theorem next_cases (shares : List ℚ) (threshold : ℚ) :
    (∃ x, IsNext shares threshold x ∧ pyMax (shares.filter (fun i => i < threshold)) = .ok x) ∨
      ((∀ x ∈ shares, threshold ≤ x) ∧ pyMax (shares.filter (fun i => i < threshold)) = .error .valueError) := by
  rcases hl : shares.filter (fun i => i < threshold) with _ | ⟨z, l⟩
  · refine .inr ⟨fun x hx => ?_, rfl⟩
    have := List.filter_eq_nil_iff.1 hl x hx
    simpa using this
  · refine .inl ?_
    have hok : pyMax (z :: l) = .ok (l.foldl max z) := rfl
    obtain ⟨h1, h2⟩ := pyMax_ok hok
    rw [← hl] at h1 h2
    refine ⟨_, ⟨(List.mem_filter.1 h1).1, by simpa using (List.mem_filter.1 h1).2, fun y hy hlt => h2 y ?_⟩, hok⟩
    exact List.mem_filter.2 ⟨hy, by simpa using hlt⟩

theorem IsNext.unique {shares : List ℚ} {threshold x y : ℚ} (h : IsNext shares threshold x) (h' : IsNext shares threshold y) : x = y :=
  le_antisymm (h'.2.2 x h.1 h.2.1) (h.2.2 y h'.1 h'.2.1)

/-- **C50** The two reward scores: the number of opportunity districts plus a bonus for the next highest district — its share, or ten
times what it has above `threshold - 0.1`, if that is positive. -/
theorem C50_reward_values (shares : List ℚ) (threshold x : ℚ) (h : IsNext shares threshold x) :
    rewardPartial shares threshold = .ok ((shares.filter (fun v => threshold ≤ v)).length + x) ∧
      rewardNextHighest shares threshold =
        .ok ((shares.filter (fun v => threshold ≤ v)).length + max 0 ((x - (threshold - 1 / 10)) * 10)) := by
  rcases next_cases shares threshold with ⟨y, hy, he⟩ | ⟨hall, -⟩
  · cases h.unique hy
    unfold rewardPartial rewardNextHighest
    rw [he, C50_count]
    refine ⟨rfl, ?_⟩
    show (if x < threshold - 1 / 10 then pure _ else pure _ : Py ℚ) = _
    by_cases hx : x < threshold - 1 / 10
    · rw [if_pos hx, max_eq_left (by linarith), add_zero]; rfl
    · rw [if_neg hx, max_eq_right (by linarith)]
      refine congrArg Except.ok ?_
      ring
  · exact absurd (hall x h.1) (not_le.2 h.2.1)

/-- **C50 (violation)** When every district is an opportunity district — the best possible plan — both reward scores raise
`ValueError`. -/
theorem C50_reward_violation (shares : List ℚ) (threshold : ℚ) (h : ∀ x ∈ shares, threshold ≤ x) :
    rewardPartial shares threshold = .error .valueError ∧ rewardNextHighest shares threshold = .error .valueError := by
  rcases next_cases shares threshold with ⟨y, hy, -⟩ | ⟨-, he⟩
  · exact absurd (h y hy.1) (not_le.2 hy.2.1)
  · unfold rewardPartial rewardNextHighest
    rw [he]
    exact ⟨rfl, rfl⟩

/-- **C50 (partial)** If both plans have a score, the plan with more opportunity districts scores strictly higher (also when the plans
have different numbers of districts).  Missing: plans all of whose districts are opportunity districts have no score
(`C50_reward_violation`). -/
theorem C50_rank_partial (shares shares' : List ℚ) (threshold a b : ℚ)
    (hmore : (shares.filter (fun v => threshold ≤ v)).length < (shares'.filter (fun v => threshold ≤ v)).length) :
    ((∀ v ∈ shares ++ shares', 0 ≤ v) → threshold ≤ 1 → rewardPartial shares threshold = .ok a → rewardPartial shares' threshold = .ok b → a < b) ∧
      (rewardNextHighest shares threshold = .ok a → rewardNextHighest shares' threshold = .ok b → a < b) := by
  have hm : ((shares.filter (fun v => threshold ≤ v)).length : ℚ) + 1 ≤ ((shares'.filter (fun v => threshold ≤ v)).length : ℚ) := by
    exact_mod_cast hmore
  constructor
  · intro hpos ht ha hb
    rcases next_cases shares threshold with ⟨x, hx, -⟩ | ⟨hall, -⟩
    swap
    · rw [(C50_reward_violation _ _ hall).1] at ha; cases ha
    rcases next_cases shares' threshold with ⟨y, hy, -⟩ | ⟨hall, -⟩
    swap
    · rw [(C50_reward_violation _ _ hall).1] at hb; cases hb
    rw [(C50_reward_values _ _ _ hx).1, Except.ok.injEq] at ha
    rw [(C50_reward_values _ _ _ hy).1, Except.ok.injEq] at hb
    have := hpos y (List.mem_append_right _ hy.1)
    have := hx.2.1
    linarith
  · intro ha hb
    rcases next_cases shares threshold with ⟨x, hx, -⟩ | ⟨hall, -⟩
    swap
    · rw [(C50_reward_violation _ _ hall).2] at ha; cases ha
    rcases next_cases shares' threshold with ⟨y, hy, -⟩ | ⟨hall, -⟩
    swap
    · rw [(C50_reward_violation _ _ hall).2] at hb; cases hb
    rw [(C50_reward_values _ _ _ hx).2, Except.ok.injEq] at ha
    rw [(C50_reward_values _ _ _ hy).2, Except.ok.injEq] at hb
    have h1 := le_max_left 0 ((y - (threshold - 1 / 10)) * 10)
    have h2 : max 0 ((x - (threshold - 1 / 10)) * 10) < 1 := max_lt one_pos (by linarith [hx.2.1])
    linarith

/-- **C50** `penalize_maximum_over`: with shares of at most 1 the score lies between the number of opportunity districts and that
number plus one; it is missing only when the threshold is 1 and some district has share 1. -/
theorem C50_penalize_maximum (shares : List ℚ) (threshold : ℚ) (h1 : ∀ v ∈ shares, v ≤ 1) :
    (∃ a, penalizeMaximum shares threshold = .ok a ∧ ((shares.filter (fun v => threshold ≤ v)).length : ℚ) ≤ a ∧
      a ≤ (shares.filter (fun v => threshold ≤ v)).length + 1) ∨
    (penalizeMaximum shares threshold = .error .zeroDivision ∧ threshold = 1 ∧ 1 ∈ shares) := by
  unfold penalizeMaximum
  rw [C50_count]
  by_cases h0 : (shares.filter (fun v => threshold ≤ v)).length = 0
  · rw [if_pos h0, h0]
    exact .inl ⟨0, rfl, by norm_num, by norm_num⟩
  rw [if_neg h0]
  obtain ⟨v, hv⟩ := List.exists_mem_of_length_pos (Nat.pos_of_ne_zero h0)
  obtain ⟨hv1, hv2⟩ := List.mem_filter.1 hv
  simp only [decide_eq_true_eq] at hv2
  rcases hmax : pyMax shares with e | m
  · rcases shares with _ | ⟨z, l⟩
    · simp at hv1
    · cases hmax
  obtain ⟨g1, g2⟩ := pyMax_ok hmax
  have hm : threshold ≤ m := hv2.trans (g2 v hv1)
  show _ ∨ (if 1 - threshold = 0 then _ else _) = _ ∧ _
  by_cases ht : 1 - threshold = 0
  · refine .inr ⟨by rw [if_pos ht], by linarith, ?_⟩
    have : m = 1 := le_antisymm (h1 m g1) (by linarith)
    exact this ▸ g1
  · have hlt : threshold < 1 := lt_of_le_of_ne (hv2.trans (h1 v hv1)) (fun h => ht (by linarith))
    have hpos : 0 < 1 - threshold := by linarith
    refine .inl ⟨(shares.filter (fun v => threshold ≤ v)).length + (1 - m) / (1 - threshold), ?_, ?_, ?_⟩
    · show (if 1 - threshold = 0 then _ else _) = _
      rw [if_neg ht]
      rfl
    · have := div_nonneg (by linarith [h1 m g1] : (0 : ℚ) ≤ 1 - m) hpos.le
      linarith
    · have := (div_le_one hpos).2 (by linarith : 1 - m ≤ 1 - threshold)
      linarith

theorem sum_bounds {l : List ℚ} {lo hi : ℚ} (h : ∀ v ∈ l, lo ≤ v ∧ v ≤ hi) : l.length * lo ≤ l.sum ∧ l.sum ≤ l.length * hi := by
  induction l with
  | nil => simp
  | cons x l ih =>
    obtain ⟨g1, g2⟩ := ih (fun v hv => h v (List.mem_cons_of_mem _ hv))
    obtain ⟨g3, g4⟩ := h x List.mem_cons_self
    rw [List.sum_cons, List.length_cons]
    push_cast
    constructor <;> linarith

/-- **C50** `penalize_avg_over`: the same bounds; NaN only when the threshold is 1 and some district has share 1. -/
theorem C50_penalize_average (shares : List ℚ) (threshold : ℚ) (h1 : ∀ v ∈ shares, v ≤ 1) :
    (∃ a, penalizeAverage shares threshold = some a ∧ ((shares.filter (fun v => threshold ≤ v)).length : ℚ) ≤ a ∧
      a ≤ (shares.filter (fun v => threshold ≤ v)).length + 1) ∨
    (penalizeAverage shares threshold = none ∧ threshold = 1 ∧ 1 ∈ shares) := by
  unfold penalizeAverage
  simp only
  by_cases h0 : shares.filter (fun v => threshold ≤ v) = []
  · rw [if_pos h0, h0]
    exact .inl ⟨0, rfl, by simp, by simp⟩
  rw [if_neg h0]
  obtain ⟨v, hv⟩ := List.exists_mem_of_ne_nil _ h0
  obtain ⟨hv1, hv2⟩ := List.mem_filter.1 hv
  simp only [decide_eq_true_eq] at hv2
  by_cases ht : 1 - threshold = 0
  · rw [if_pos ht]
    have : v = 1 := le_antisymm (h1 v hv1) (by linarith)
    exact .inr ⟨rfl, by linarith, this ▸ hv1⟩
  · rw [if_neg ht]
    have hlt : threshold < 1 := lt_of_le_of_ne (hv2.trans (h1 v hv1)) (fun h => ht (by linarith))
    have hpos : 0 < 1 - threshold := by linarith
    obtain ⟨b1, b2⟩ := sum_bounds (l := shares.filter (fun v => threshold ≤ v)) (lo := threshold) (hi := 1) (fun w hw => by
      obtain ⟨w1, w2⟩ := List.mem_filter.1 hw
      exact ⟨by simpa using w2, h1 w w1⟩)
    have hlen : (0 : ℚ) < (shares.filter (fun v => threshold ≤ v)).length := by exact_mod_cast List.length_pos_of_ne_nil h0
    set n : ℚ := ((shares.filter (fun v => threshold ≤ v)).length : ℚ) with hn
    have c1 : threshold ≤ (shares.filter (fun v => threshold ≤ v)).sum / n := (le_div_iff₀ hlen).2 (by linarith)
    have c2 : (shares.filter (fun v => threshold ≤ v)).sum / n ≤ 1 := (div_le_iff₀ hlen).2 (by linarith)
    refine .inl ⟨_, rfl, ?_, ?_⟩
    · have := div_nonneg (by linarith : (0 : ℚ) ≤ 1 - (shares.filter (fun v => threshold ≤ v)).sum / n) hpos.le
      linarith
    · have := (div_le_one hpos).2 (by linarith : 1 - (shares.filter (fun v => threshold ≤ v)).sum / n ≤ 1 - threshold)
      linarith

theorem shares_aux {minority total : Dict P ℚ} {parts : List P} {d r : Dict P ℚ} (hd : d.WF)
    (h : parts.foldlM (fun (d : Dict P ℚ) k => do
      let a ← minority.get k
      let b ← total.get k
      if b = 0 then Except.error PyErr.zeroDivision else pure (d.set k (a / b))) d = .ok r) :
    r.WF ∧ (∀ k ∈ parts, ∃ a b, minority.get k = .ok a ∧ total.get k = .ok b ∧ b ≠ 0 ∧ r.get? k = some (a / b)) ∧
      ∀ k ∉ parts, r.get? k = d.get? k := by
  induction parts generalizing d with
  | nil => cases h; exact ⟨hd, by simp, by simp⟩
  | cons x parts ih =>
    rw [List.foldlM_cons] at h
    rcases ha : minority.get x with e | a <;> rw [ha] at h
    · cases h
    rcases hb : total.get x with e | b <;> rw [hb] at h
    · cases h
    simp only [bind, Except.bind] at h
    by_cases h0 : b = 0
    · rw [if_pos h0] at h; cases h
    rw [if_neg h0] at h
    obtain ⟨g1, g2, g3⟩ := ih (hd.set _ _) h
    refine ⟨g1, fun k hk => ?_, fun k hk => ?_⟩
    · by_cases hk' : k ∈ parts
      · exact g2 k hk'
      · obtain rfl : k = x := by simpa [hk'] using hk
        refine ⟨a, b, ha, hb, h0, ?_⟩
        rw [g3 k hk', Dict.get?_set, if_pos rfl]
    · simp only [List.mem_cons, not_or] at hk
      rw [g3 k hk.2, Dict.get?_set, if_neg hk.1]

/-- **C50** The percentage updater made by the constructor: the quotient of the two columns for every district; between 0 and 1 when no
minority population is negative or exceeds the total. -/
theorem C50_shares (parts : List P) (minority total shares : Dict P ℚ) (h : minorityShares parts minority total = .ok shares) :
    (∀ k, k ∈ shares.keys ↔ k ∈ parts) ∧
    (∀ k ∈ parts, ∃ a b, minority.get k = .ok a ∧ total.get k = .ok b ∧ b ≠ 0 ∧ shares.get k = .ok (a / b)) ∧
      ((∀ k ∈ parts, ∀ a b, minority.get k = .ok a → total.get k = .ok b → 0 ≤ a ∧ a ≤ b) → ∀ v ∈ shares.values, 0 ≤ v ∧ v ≤ 1) := by
  obtain ⟨g1, g2, g3⟩ := shares_aux Dict.wf_empty h
  have hk : ∀ k, k ∈ shares.keys ↔ k ∈ parts := by
    intro k
    rw [Dict.mem_keys_iff]
    constructor
    · rintro ⟨v, hv⟩
      by_contra hn
      rw [g3 k hn] at hv
      cases hv
    · intro hp
      obtain ⟨a, b, -, -, -, h4⟩ := g2 k hp
      exact ⟨_, h4⟩
  refine ⟨hk, fun k hp => ?_, fun hpop v hv => ?_⟩
  · obtain ⟨a, b, h1, h2, h3, h4⟩ := g2 k hp
    exact ⟨a, b, h1, h2, h3, Dict.get_eq_ok_iff.2 h4⟩
  · obtain ⟨⟨k, w⟩, he, rfl⟩ := List.mem_map.1 hv
    have hget := (Dict.mem_entries_iff g1).1 he
    have hp : k ∈ parts := (hk k).1 (Dict.mem_keys_iff.2 ⟨_, hget⟩)
    obtain ⟨a, b, h1, h2, h3, h4⟩ := g2 k hp
    rw [hget] at h4
    cases h4
    obtain ⟨c1, c2⟩ := hpop k hp a b h1 h2
    have hb : 0 < b := lt_of_le_of_ne (c1.trans c2) (Ne.symm h3)
    exact ⟨div_nonneg c1 hb.le, (div_le_one hb).2 c2⟩

/-! ### Examples -/

example : numOpportunity [2 / 5, 1 / 2, 3 / 5] (1 / 2) = 2 := by decide +kernel

example : IsNext [2 / 5, 1 / 2, 3 / 5, 9 / 20] (1 / 2) (9 / 20) := by
  refine ⟨by simp, by norm_num, fun y hy h => ?_⟩
  simp only [List.mem_cons, List.not_mem_nil, or_false] at hy
  rcases hy with rfl | rfl | rfl | rfl <;> first | (exfalso; revert h; norm_num; done) | norm_num

example : (rewardPartial [2 / 5, 1 / 2, 3 / 5] (1 / 2)).toOption = some (12 / 5) ∧
    (rewardNextHighest [2 / 5, 1 / 2, 3 / 5] (1 / 2)).toOption = some 2 ∧
    (rewardNextHighest [9 / 20, 1 / 2, 3 / 5] (1 / 2)).toOption = some (5 / 2) ∧
    (penalizeMaximum [2 / 5, 1 / 2, 3 / 5] (1 / 2)).toOption = some (14 / 5) ∧
    penalizeAverage [2 / 5, 1 / 2, 3 / 5] (1 / 2) = some (29 / 10) := by decide +kernel

/-- the crash at the best possible plan -/
example : (rewardPartial [1 / 2, 3 / 5] (1 / 2)).toOption = none := by decide +kernel

/-- The penalty scores only rank weakly: one district exactly at the threshold ties with two districts of which one has share 1. -/
example : (penalizeMaximum [1 / 2, 0] (1 / 2)).toOption = (penalizeMaximum [1 / 2, 1] (1 / 2)).toOption := by decide +kernel

example : (minorityShares [1, 2] ⟨[(1, 10), (2, 30)]⟩ ⟨[(1, 40), (2, 60)]⟩).toOption.map Dict.values = some [1 / 4, 1 / 2] := by decide +kernel

end GC

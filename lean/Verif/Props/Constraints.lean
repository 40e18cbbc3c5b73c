import Verif.Model.Constraints
import Verif.Props.Updaters
import Mathlib.Tactic.Linarith
import Mathlib.Tactic.Ring
import Mathlib.Tactic.FieldSimp
import Mathlib.Algebra.Order.Field.Rat
import Mathlib.Algebra.BigOperators.Group.List.Basic

/-!
# C20, C21, C22, C27, C58, C60: numeric constraints and acceptance
-/

set_option linter.unusedSectionVars false
set_option autoImplicit false

namespace GC

variable {V P : Type} [LinearOrder V] [DecidableEq P]

theorem foldl_min_le (l : List ℚ) (x b : ℚ) : b ≤ l.foldl min x ↔ b ≤ x ∧ ∀ y ∈ l, b ≤ y := by
  induction l generalizing x with
  | nil => simp
  | cons a l ih => rw [List.foldl_cons, ih, le_min_iff, List.forall_mem_cons, and_assoc]

theorem foldl_max_le (l : List ℚ) (x b : ℚ) : l.foldl max x ≤ b ↔ x ≤ b ∧ ∀ y ∈ l, y ≤ b := by
  induction l generalizing x with
  | nil => simp
  | cons a l ih => rw [List.foldl_cons, ih, max_le_iff, List.forall_mem_cons, and_assoc]

theorem foldl_min_mem (l : List ℚ) (x : ℚ) : l.foldl min x ∈ x :: l := by
  induction l generalizing x with
  | nil => simp
  | cons a l ih =>
    rw [List.foldl_cons]
    rcases List.mem_cons.1 (ih (min x a)) with h | h
    · rw [h]
      rcases min_choice x a with h' | h' <;> rw [h'] <;> simp
    · simp [h]

theorem foldl_max_mem (l : List ℚ) (x : ℚ) : l.foldl max x ∈ x :: l := by
  induction l generalizing x with
  | nil => simp
  | cons a l ih =>
    rw [List.foldl_cons]
    rcases List.mem_cons.1 (ih (max x a)) with h | h
    · rw [h]
      rcases max_choice x a with h' | h' <;> rw [h'] <;> simp
    · simp [h]

/-! ### C20 -/

/-- **C20 (Bounds).** For a function returning a container, `Bounds` accepts exactly when all values are in `[lower, upper]`,
refuses exactly when there are values and one is outside, and raises (`ValueError`) exactly when there are no values. -/
theorem C20_bounds (lower upper : ℚ) (values : List ℚ) :
    (boundsCall lower upper (.container values) = .ok true ↔ values ≠ [] ∧ ∀ x ∈ values, lower ≤ x ∧ x ≤ upper) ∧
    (boundsCall lower upper (.container values) = .ok false ↔ ∃ x ∈ values, ¬ (lower ≤ x ∧ x ≤ upper)) ∧
    (∀ e, boundsCall lower upper (.container values) = .error e ↔ values = [] ∧ e = .valueError) := by
  rcases values with _ | ⟨x, xs⟩
  · refine ⟨?_, ?_, ?_⟩
    · simp [boundsCall, pyMin, Iterable.first, bind, Except.bind]
    · simp [boundsCall, pyMin, Iterable.first, bind, Except.bind]
    · intro e
      simp [boundsCall, pyMin, Iterable.first, bind, Except.bind, eq_comm]
  · have hval : boundsCall lower upper (.container (x :: xs)) =
        .ok (decide (∀ y ∈ x :: xs, lower ≤ y ∧ y ≤ upper)) := by
      simp only [boundsCall, pyMin, pyMax, Iterable.first, Iterable.second, bind, Except.bind, pure, Except.pure]
      by_cases h : lower ≤ xs.foldl min x
      · rw [if_pos h]
        congr 1
        rw [decide_eq_decide, foldl_max_le]
        rw [foldl_min_le] at h
        constructor
        · intro h' y hy
          rcases List.mem_cons.1 hy with rfl | hy
          · exact ⟨h.1, h'.1⟩
          · exact ⟨h.2 y hy, h'.2 y hy⟩
        · intro h'
          exact ⟨(h' x List.mem_cons_self).2, fun y hy => (h' y (List.mem_cons_of_mem _ hy)).2⟩
      · rw [if_neg h]
        congr 1
        symm
        rw [decide_eq_false_iff_not]
        intro h'
        apply h
        rw [foldl_min_le]
        exact ⟨(h' x List.mem_cons_self).1, fun y hy => (h' y (List.mem_cons_of_mem _ hy)).1⟩
    rw [hval]
    refine ⟨?_, ?_, ?_⟩
    · simp only [Except.ok.injEq, decide_eq_true_eq]
      exact ⟨fun h => ⟨by simp, h⟩, fun h => h.2⟩
    · simp only [Except.ok.injEq, decide_eq_false_iff_not]
      push Not
      rfl
    · intro e; simp

/-- **C20 is violated for one-shot iterators**: with a generator, `Bounds` raises `ValueError` although all values are
within bounds (`min` exhausts the generator before `max` reads it). -/
theorem C20_generator_violation (lower upper : ℚ) (x : ℚ) (xs : List ℚ) (h : ∀ y ∈ x :: xs, lower ≤ y ∧ y ≤ upper) :
    boundsCall lower upper (.generator (x :: xs)) = .error .valueError := by
  simp only [boundsCall, pyMin, pyMax, Iterable.first, Iterable.second, bind, Except.bind]
  rw [if_pos]
  rw [foldl_min_le]
  exact ⟨(h x List.mem_cons_self).1, fun y hy => (h y (List.mem_cons_of_mem _ hy)).1⟩

/-- **C20 (one-sided).** -/
theorem C20_one_sided (bound value : ℚ) :
    (upperBoundCall bound value = true ↔ value ≤ bound) ∧ (lowerBoundCall bound value = true ↔ bound ≤ value) := by
  simp [upperBoundCall, lowerBoundCall]

example : boundsCall 1 3 (.container [2, 3, 1]) = .ok true ∧ boundsCall 1 3 (.container [2, 4]) = .ok false ∧
    boundsCall 1 3 (.container []) = .error .valueError := by decide +kernel

/-! ### C21 -/

theorem callAll_upper_const {b : ℚ} (hb : b ≠ 0) (vs : List ℚ) :
    callAll selfUpperCall (some b) vs = vs.map (fun v => decide (v ≤ b)) := by
  induction vs with
  | nil => rfl
  | cons v vs ih =>
    unfold callAll
    have : selfUpperCall (some b) v = (some b, decide (v ≤ b)) := by simp [selfUpperCall, falsy, hb]
    rw [this]
    simp only
    rw [ih]; rfl

theorem callAll_lower_const {e b : ℚ} (hb : b ≠ 0) (vs : List ℚ) :
    callAll (selfLowerCall e) (some b) vs = vs.map (fun v => decide (b ≤ v)) := by
  induction vs with
  | nil => rfl
  | cons v vs ih =>
    unfold callAll
    have : selfLowerCall e (some b) v = (some b, decide (b ≤ v)) := by simp [selfLowerCall, falsy, hb]
    rw [this]
    simp only
    rw [ih]; rfl

/-- **C21 (partial).** If the value configured by the first call is not zero, every call accepts exactly the values at most
(at least) that bound.  Missing: the case of a zero bound, where the property fails (`C21_zero_bound_violation`). -/
theorem C21_keeps_first_bound_partial (v0 : ℚ) (vs : List ℚ) (epsilon : ℚ) (he : 0 ≤ epsilon) :
    (v0 ≠ 0 → callAll selfUpperCall none (v0 :: vs) = (v0 :: vs).map (fun v => decide (v ≤ v0))) ∧
    (v0 - epsilon ≠ 0 →
      callAll (selfLowerCall epsilon) none (v0 :: vs) = (v0 :: vs).map (fun v => decide (v0 - epsilon ≤ v))) := by
  constructor
  · intro h
    unfold callAll
    have : selfUpperCall none v0 = (some v0, true) := by simp [selfUpperCall, falsy]
    rw [this]
    simp only
    rw [callAll_upper_const h]
    simp
  · intro h
    unfold callAll
    have : selfLowerCall epsilon none v0 = (some (v0 - epsilon), true) := by
      simp [selfLowerCall, falsy, he]
    rw [this]
    simp only
    rw [callAll_lower_const h]
    simp [he]

/-- **C21 (exact behaviour).** In general the bound in force at a call is the first non-zero value seen so far. -/
theorem C21_effective_bound (zeros : List ℚ) (hz : ∀ z ∈ zeros, z = 0) (b : ℚ) (hb : b ≠ 0) (vs : List ℚ) :
    callAll selfUpperCall none (zeros ++ b :: vs) =
      zeros.map (fun _ => true) ++ (b :: vs).map (fun v => decide (v ≤ b)) := by
  have key : ∀ s : Option ℚ, falsy s = true → callAll selfUpperCall s (zeros ++ b :: vs) =
      zeros.map (fun _ => true) ++ (b :: vs).map (fun v => decide (v ≤ b)) := by
    induction zeros with
    | nil =>
      intro s hs
      simp only [List.nil_append, List.map_nil]
      unfold callAll
      have : selfUpperCall s b = (some b, true) := by simp [selfUpperCall, hs]
      rw [this]
      simp only
      rw [callAll_upper_const hb]
      simp
    | cons z zs ih =>
      intro s hs
      have hz0 : z = 0 := hz z List.mem_cons_self
      subst hz0
      rw [List.cons_append]
      unfold callAll
      have : selfUpperCall s 0 = (some 0, true) := by simp [selfUpperCall, hs]
      rw [this]
      simp only
      rw [ih (fun z h => hz z (List.mem_cons_of_mem _ h)) (some 0) (by simp [falsy])]
      rfl
  exact key none rfl

/-- **C21 is violated for a zero bound**: configured on a partition with value 0, the constraint accepts value 7. -/
theorem C21_zero_bound_violation :
    callAll selfUpperCall none [0, 7] = [true, true] ∧ callAll (selfLowerCall (1/20)) none [1/20, -3] = [true, true] := by
  decide +kernel

example : callAll selfUpperCall none [3, 4, 2] = [true, false, true] := by decide +kernel

/-! ### C60 -/

theorem callAll_within_const {p l u : ℚ} (hl : l ≠ 0) (hu : u ≠ 0) (vs : List ℚ) :
    callAll (withinPercentCall p) (some l, some u) vs = vs.map (fun v => decide (l ≤ v ∧ v ≤ u)) := by
  induction vs with
  | nil => rfl
  | cons v vs ih =>
    unfold callAll
    have : withinPercentCall p (some l, some u) v = ((some l, some u), decide (l ≤ v ∧ v ≤ u)) := by
      simp [withinPercentCall, falsy, hl, hu]
    rw [this]
    simp only
    rw [ih]; rfl

/-- **C60 (partial).** If the first value is not zero and `percent < 100`, `WithinPercentRangeOfBounds(f, percent)` accepts,
from the second call on, exactly the values between (1 - percent/100) and (1 + percent/100) times the first.  Missing: zero
first value and 100 percent, see `C60_hundred_percent_violation`. -/
theorem C60_within_percent_partial (percent v0 : ℚ) (h0 : v0 ≠ 0) (hp0 : 0 ≤ percent) (hp : percent < 100) (vs : List ℚ) :
    callAll (withinPercentCall (percent / 100)) (none, none) (v0 :: vs) =
      true :: vs.map (fun v => decide (v0 * (1 - percent / 100) ≤ v ∧ v ≤ v0 * (1 + percent / 100))) := by
  unfold callAll
  have : withinPercentCall (percent / 100) (none, none) v0 =
      ((some (v0 * (1 - percent / 100)), some (v0 * (1 + percent / 100))), true) := by
    simp [withinPercentCall, falsy]
  rw [this]
  simp only
  rw [callAll_within_const]
  · apply mul_ne_zero h0; linarith
  · apply mul_ne_zero h0; linarith

/-- **C60 is violated at 100 percent**: the lower bound is 0, which counts as unset, so every value is accepted forever. -/
theorem C60_hundred_percent_violation (v0 : ℚ) (vs : List ℚ) :
    callAll (withinPercentCall (100 / 100)) (none, none) (v0 :: vs) = (v0 :: vs).map (fun _ => true) := by
  have key : ∀ (s : Option ℚ × Option ℚ) (l : List ℚ), falsy s.1 = true →
      callAll (withinPercentCall (100 / 100)) s l = l.map (fun _ => true) := by
    intro s l
    induction l generalizing s with
    | nil => intro _; rfl
    | cons v l ih =>
      intro hs
      unfold callAll
      have : withinPercentCall (100 / 100) s v = ((some (v * (1 - 100 / 100)), some (v * (1 + 100 / 100))), true) := by
        simp [withinPercentCall, hs]
      rw [this]
      simp only
      rw [ih]
      · rfl
      · simp [falsy]
  exact key _ _ rfl

example : callAll (withinPercentCall (10 / 100)) (none, none) [100, 90, 111] = [true, true, false] := by decide +kernel

/-! ### C22 -/

/-- **C22 (ideal population).** The constraint built from `initial` returns, and it returns `True` exactly on the
population tables all of whose values are within `percent` of the mean population of `initial`. -/
theorem C22_within_percent_of_ideal (initial pops : Dict P ℚ) (hi : initial.entries ≠ []) (hp : pops.entries ≠ [])
    (percent : ℚ) :
    ∃ b, withinPercentOfIdeal initial percent pops = .ok b ∧ (b = true ↔ ∀ part x, (part, x) ∈ pops.entries →
      (1 - percent) * (initial.values.sum / initial.entries.length) ≤ x ∧
      x ≤ (1 + percent) * (initial.values.sum / initial.entries.length)) := by
  have hl : initial.keys.length = initial.entries.length := by simp [Dict.keys]
  have hid : idealPopulation initial = .ok (initial.values.sum / initial.entries.length) := by
    unfold idealPopulation
    rw [hl, if_neg (by simpa using hi)]
  unfold withinPercentOfIdeal withinPercentBounds
  rw [hid]
  simp only [bind, Except.bind, pure, Except.pure]
  have hv : pops.values ≠ [] := by simpa [Dict.values] using hp
  have hmem : ∀ Q : ℚ → Prop, (∀ x ∈ pops.values, Q x) ↔ ∀ part x, (part, x) ∈ pops.entries → Q x := by
    intro Q
    unfold Dict.values
    simp only [List.mem_map, forall_exists_index, and_imp, Prod.forall]
    constructor
    · intro h part x hx; exact h x part x hx rfl
    · rintro h _ part x hx rfl; exact h part x hx
  obtain ⟨h1, h2, -⟩ := C20_bounds ((1 - percent) * (initial.values.sum / initial.entries.length))
    ((1 + percent) * (initial.values.sum / initial.entries.length)) pops.values
  by_cases h : ∀ part x, (part, x) ∈ pops.entries →
      (1 - percent) * (initial.values.sum / initial.entries.length) ≤ x ∧
      x ≤ (1 + percent) * (initial.values.sum / initial.entries.length)
  · refine ⟨true, h1.2 ⟨hv, (hmem (fun x => _ ≤ x ∧ x ≤ _)).2 h⟩, by simpa using h⟩
  · refine ⟨false, h2.2 ?_, by simpa using h⟩
    by_contra hn
    push Not at hn
    exact h ((hmem (fun x => _ ≤ x ∧ x ≤ _)).1 (fun x hx => hn x hx))

/-- **C22 (deviations).** When the mean population is not zero, `deviation_from_ideal` reports (population - mean) / mean
for every district, and these sum to zero. -/
theorem C22_deviation (pops : Dict P ℚ) (hp : pops.entries ≠ []) (hz : pops.values.sum ≠ 0) :
    ∃ d, deviationFromIdeal pops = .ok d ∧
      d.entries = pops.entries.map (fun e => (e.1, (e.2 - pops.values.sum / pops.entries.length) /
        (pops.values.sum / pops.entries.length))) ∧
      d.values.sum = 0 := by
  have hl : pops.keys.length = pops.entries.length := by simp [Dict.keys]
  have hlen : (pops.entries.length : ℚ) ≠ 0 := by
    simpa using hp
  have hid : idealPopulation pops = .ok (pops.values.sum / pops.entries.length) := by
    unfold idealPopulation
    rw [hl, if_neg (by simpa using hp)]
  have hne : pops.values.sum / pops.entries.length ≠ 0 := div_ne_zero hz hlen
  have hm : ∀ l : List (P × ℚ), l.mapM (fun e => if pops.values.sum / pops.entries.length = 0 then
      (.error .zeroDivision : Py (P × ℚ)) else .ok (e.1, (e.2 - pops.values.sum / pops.entries.length) /
        (pops.values.sum / pops.entries.length))) =
      .ok (l.map (fun e => (e.1, (e.2 - pops.values.sum / pops.entries.length) /
        (pops.values.sum / pops.entries.length)))) := by
    intro l
    induction l with
    | nil => rfl
    | cons a l ih =>
      rw [List.mapM_cons, ih, if_neg hne]
      rfl
  refine ⟨⟨_⟩, ?_, rfl, ?_⟩
  · unfold deviationFromIdeal
    rw [hid]
    simp only [bind, Except.bind]
    rw [hm]
    rfl
  · set c := pops.values.sum / pops.entries.length with hc
    have hs : ∀ l : List (P × ℚ), (l.map ((fun x => x.2) ∘ fun e => (e.1, (e.2 - c) / c))).sum =
        ((l.map (·.2)).sum - l.length * c) / c := by
      intro l
      induction l with
      | nil => simp
      | cons a l ih =>
        simp only [List.map_cons, List.sum_cons, Function.comp, List.length_cons] at *
        rw [ih]
        push_cast
        ring
    show ((pops.entries.map fun e => (e.1, (e.2 - c) / c)).map (·.2)).sum = 0
    rw [List.map_map, hs]
    have : (pops.entries.map (·.2)).sum = pops.values.sum := rfl
    rw [this, hc]
    rw [mul_div_cancel₀ _ hlen]
    simp

/-- **C22 (tolerance).** `districts_within_tolerance` accepts exactly when any two districts differ by at most the tolerance
times the smallest; tolerances of 1 and more are read as percentages. -/
theorem C22_tolerance (pops : Dict P ℚ) (hp : pops.entries ≠ []) (percentage : ℚ) :
    ∃ m ∈ pops.values, (∀ x ∈ pops.values, m ≤ x) ∧
      districtsWithinTolerance pops percentage = .ok (decide (∀ x ∈ pops.values, ∀ y ∈ pops.values,
        x - y ≤ (if percentage < 1 then percentage else percentage / 100) * m)) := by
  have hv : pops.values ≠ [] := by simpa [Dict.values] using hp
  rcases hvs : pops.values with _ | ⟨x, xs⟩
  · exact absurd hvs hv
  refine ⟨xs.foldl min x, foldl_min_mem xs x, ?_, ?_⟩
  · have := (foldl_min_le xs x (xs.foldl min x)).1 le_rfl
    intro y hy
    rcases List.mem_cons.1 hy with rfl | hy
    · exact this.1
    · exact this.2 y hy
  · unfold districtsWithinTolerance
    rw [hvs]
    simp only [pyMin, pyMax, bind, Except.bind, pure, Except.pure]
    congr 1
    rw [decide_eq_decide]
    have hmin := (foldl_min_le xs x (xs.foldl min x)).1 le_rfl
    have hmax := (foldl_max_le xs x (xs.foldl max x)).1 le_rfl
    have hpc : (if percentage ≥ 1 then percentage * (1 / 100) else percentage) =
        (if percentage < 1 then percentage else percentage / 100) := by
      by_cases h : percentage < 1
      · rw [if_neg (not_le.2 h), if_pos h]
      · rw [if_pos (not_lt.1 h), if_neg h]; ring
    rw [hpc]
    constructor
    · intro h a ha b hb
      have h1 : a ≤ xs.foldl max x := by
        rcases List.mem_cons.1 ha with rfl | ha
        · exact hmax.1
        · exact hmax.2 a ha
      have h2 : xs.foldl min x ≤ b := by
        rcases List.mem_cons.1 hb with rfl | hb
        · exact hmin.1
        · exact hmin.2 b hb
      linarith
    · intro h
      exact h _ (foldl_max_mem xs x) _ (foldl_min_mem xs x)

example : districtsWithinTolerance (⟨[(1, 100), (2, 105)]⟩ : Dict ℕ ℚ) 5 = .ok true ∧
    districtsWithinTolerance (⟨[(1, 100), (2, 105)]⟩ : Dict ℕ ℚ) (1/25) = .ok false := by decide +kernel

example : withinPercentOfIdeal (⟨[(1, 100), (2, 110)]⟩ : Dict ℕ ℚ) (1/10) ⟨[(1, 95), (2, 115)]⟩ = .ok true := by
  decide +kernel

/-! ### C27 and C58: partition objects -/

section
variable {D : GraphData V} {ups : List Key} {ops : List (Op V P)}

/-- **C27.** In every history `no_vanishing_districts(p)` is `True` exactly when `p` has no parent (or a parent without
districts, which python treats as no parent) or all districts of `p` are nonempty. -/
theorem C27_no_vanishing (hD : D.graph.WF) (hops : ∀ op ∈ ops, op.WF) {p : ℕ} {v : View V P}
    (hv : (Heap.after D ups ops).frame.view p = some v) :
    ∃ b, noVanishing (Heap.after D ups ops).frame p = some b ∧
      (b = true ↔ v.parent = none ∨ v.assignment.parts.keys = [] ∨
        ∀ part s, v.assignment.parts.get? part = some s → s.Nonempty) := by
  obtain ⟨hi, hd, -⟩ := after_inv (P := P) (ups := ups) hD hops
  have hc := hi.frame.coherent p v hv
  have hall : (v.assignment.parts.values.all (fun s => 0 < s.card)) = true ↔
      ∀ part s, v.assignment.parts.get? part = some s → s.Nonempty := by
    rw [List.all_eq_true]
    constructor
    · intro h part s hs
      have := h s ((Dict.mem_values_iff hc.parts_wf).2 ⟨part, hs⟩)
      simpa [Finset.card_pos] using this
    · intro h s hs
      obtain ⟨part, hp⟩ := (Dict.mem_values_iff hc.parts_wf).1 hs
      simpa [Finset.card_pos] using h part s hp
  unfold noVanishing
  rw [hv]
  simp only [Option.bind_eq_bind, Option.bind_some]
  rcases hpar : v.parent with _ | q
  · have : Frame.truthyParent (Heap.after D ups ops).frame v = none := by
      unfold Frame.truthyParent; rw [hpar]
    rw [this]
    exact ⟨true, rfl, by simp⟩
  · obtain ⟨w, hq, hw, flips, flows, -, -, -, hs, -⟩ := hi.frame.link p v q hv hpar
    have hkeys : v.assignment.parts.keys = w.assignment.parts.keys := hs.keys
    unfold Frame.truthyParent
    rw [hpar]
    simp only
    rw [hw]
    simp only
    by_cases he : w.assignment.parts.entries.isEmpty = true
    · rw [if_pos he]
      refine ⟨true, rfl, ?_⟩
      have : v.assignment.parts.keys = [] := by
        rw [hkeys]; unfold Dict.keys; rw [List.isEmpty_iff.1 he]; rfl
      simp [this]
    · rw [if_neg he]
      refine ⟨_, rfl, ?_⟩
      rw [hall]
      have : v.assignment.parts.keys ≠ [] := by
        rw [hkeys]; unfold Dict.keys
        intro h
        exact he (List.isEmpty_iff.2 (List.map_eq_nil_iff.1 h))
      simp [this]

/-- number of cut edges of an assignment -/
def numCuts (G : Graph V) (m : Dict V P) : ℕ := (cutsOf G m).card

/-- **C58.** In every history, for a registered `cut_edges` updater: `cut_edge_accept` accepts every draw when there is no
parent; otherwise it raises `ZeroDivisionError` exactly when the partition has no cut edge, accepts every draw when the number
of cut edges did not increase, and else accepts exactly the draws below the ratio of the cut-edge counts. -/
theorem C58_cut_edge_accept (hD : D.graph.WF) (hops : ∀ op ∈ ops, op.WF) {p : ℕ} {v : View V P}
    (hv : (Heap.after D ups ops).frame.view p = some v) (hk : Key.cutEdges ∈ ups) (limit : ℕ) (hl : (Heap.after D ups ops).frame.Shallow limit p)
    (draw : ℚ) (_h0 : 0 ≤ draw) (h1 : draw < 1) :
    (v.parent = none → (cutEdgeAccept (Heap.after D ups ops).frame limit draw p (Heap.after D ups ops).caches).1 = .ok true) ∧
    ∀ q w, v.parent = some q → (Heap.after D ups ops).frame.view q = some w →
      let a := numCuts D.graph w.assignment.mapping
      let b := numCuts D.graph v.assignment.mapping
      let r := (cutEdgeAccept (Heap.after D ups ops).frame limit draw p (Heap.after D ups ops).caches).1
      (b = 0 → r = .error .zeroDivision) ∧ (0 < b → b ≤ a → r = .ok true) ∧
      (a < b → r = .ok (decide (draw < (a : ℚ) / b))) := by
  obtain ⟨hi, hd, hu⟩ := after_inv (P := P) (ups := ups) hD hops
  constructor
  · intro hp
    unfold cutEdgeAccept
    rw [hv]
    simp only
    rw [hp]
    show (Except.ok (decide (draw < 1)) : Py Bool) = _
    rw [decide_eq_true h1]
  · intro q w hp hw a b r
    obtain ⟨w', hq, hw', -⟩ := hi.frame.link p v q hv hp
    -- both lookups succeed and return the exact cut edges
    have look : ∀ (c : Caches V P), CacheInv (Heap.after D ups ops).frame c → ∀ r u,
        (Heap.after D ups ops).frame.view r = some u → (Heap.after D ups ops).frame.Shallow limit r →
        ∃ c', getitem (Heap.after D ups ops).frame limit .cutEdges r c = (.ok (.edgeSet (cutsOf D.graph u.assignment.mapping)), c')
          ∧ CacheInv (Heap.after D ups ops).frame c' := by
      intro c hc r u hur hr
      have := getitem_sat hi.frame limit .cutEdges r c hc
      revert this
      rcases getitem (Heap.after D ups ops).frame limit .cutEdges r c with ⟨_ | x, c'⟩
      · intro h
        exact absurd ⟨Frame.lt_of_view hur, by rw [hu]; exact hk, ⟨limit, hr, le_rfl⟩, trivial⟩ h.2
      · rintro ⟨h1, u', hu', hcor⟩
        rw [hur] at hu'
        cases hu'
        rw [hd] at hcor
        exact ⟨c', by rw [hcor.cutEdges], h1⟩
    obtain ⟨c1, g1, hc1⟩ := look _ hi.caches q w hw (by
      rcases limit with _ | limit
      · exact hl.elim
      · exact (Link.shallow hv hp hl).mono (by omega))
    obtain ⟨c2, g2, -⟩ := look _ hc1 p v hv hl
    have hr : r = if b = 0 then .error .zeroDivision else .ok (decide (draw < min 1 ((a : ℚ) / b))) := by
      show (cutEdgeAccept (Heap.after D ups ops).frame limit draw p (Heap.after D ups ops).caches).1 = _
      unfold cutEdgeAccept
      rw [hv]
      simp only
      rw [hp]
      simp only [bind, M.bind, g1, M.lift, Val.asEdgeSet, g2]
      by_cases hb : (cutsOf D.graph v.assignment.mapping).card = 0
      · rw [if_pos hb, if_pos (show b = 0 from hb)]; rfl
      · rw [if_neg hb, if_neg (show ¬ b = 0 from hb)]; rfl
    refine ⟨fun hb => by rw [hr, if_pos hb], fun hb hab => ?_, fun hab => ?_⟩
    · rw [hr, if_neg (by omega)]
      congr 1
      rw [decide_eq_true_iff]
      have hb' : (0 : ℚ) < b := by exact_mod_cast hb
      have : (1 : ℚ) ≤ (a : ℚ) / b := by
        rw [le_div_iff₀ hb', one_mul]; exact_mod_cast hab
      rw [min_eq_left this]; exact h1
    · rw [hr, if_neg (by omega)]
      congr 1
      rw [decide_eq_decide]
      have hb' : (0 : ℚ) < b := by
        have : 0 < b := by omega
        exact_mod_cast this
      have : (a : ℚ) / b ≤ 1 := by
        rw [div_le_one₀ hb']; exact_mod_cast hab.le
      rw [min_eq_right this]

end

example : noVanishing (Heap.after exData exUps [.create exDict, .flip 0 ⟨[(0, 2), (1, 2)]⟩]).frame 1 = some false := by
  decide +kernel

example : (cutEdgeAccept (Heap.after exData exUps [.create exDict, .flip 0 ⟨[(0, 2)]⟩]).frame 9 (1/3) 1
    (Heap.after exData exUps [.create exDict, .flip 0 ⟨[(0, 2)]⟩]).caches).1 = .ok true := by decide +kernel

example : (cutEdgeAccept (Heap.after exData exUps [.create exDict, .flip 0 ⟨[(0, 2)]⟩]).frame 9 (1/2) 1
    (Heap.after exData exUps [.create exDict, .flip 0 ⟨[(0, 2)]⟩]).caches).1 = .ok false := by decide +kernel

end GC

import Verif.Lemmas.StrictTape
import Verif.Lemmas.PlanMoves

/-!
# Results that a program can return

`Can N m x`: for some numbers below `N` that the generator may draw, the program returns `x`, whatever is drawn afterwards.  Then `x` is returned with
positive probability.
-/

set_option linter.unusedSectionVars false
set_option autoImplicit false

namespace GC

variable {α β : Type}

/-- there are draws for which the program returns `x` -/
def Can (N : ℕ) (m : M Tape α) (x : α) : Prop := ∃ t0 : Tape, (∀ i ∈ t0, i < N) ∧ ∀ rest, m (t0 ++ rest) = (.ok x, rest)

theorem Can.bind {N : ℕ} {m : M Tape α} {f : α → M Tape β} {x : α} {y : β} (h : Can N m x) (hf : Can N (f x) y) : Can N (m >>= f) y := by
  obtain ⟨t, h1, h2⟩ := h
  obtain ⟨t', h3, h4⟩ := hf
  refine ⟨t ++ t', ?_, fun rest => ?_⟩
  · intro i hi
    rcases List.mem_append.1 hi with hi | hi
    · exact h1 i hi
    · exact h3 i hi
  · rw [List.append_assoc, M.bind_ok (h2 _), h4]

theorem can_pure (N : ℕ) (x : α) : Can N (pure x) x := ⟨[], by simp, fun _ => rfl⟩

theorem can_lift (N : ℕ) {r : Py α} {x : α} (h : r = .ok x) : Can N (M.lift r) x := ⟨[], by simp, fun _ => by rw [h]; rfl⟩

theorem can_choice {N : ℕ} {l : List α} (hN : l.length ≤ N) {x : α} (hx : x ∈ l) : Can N ((uniRand N).choice l) x := by
  obtain ⟨i, hi, rfl⟩ := List.getElem_of_mem hx
  refine ⟨[i], by simpa using lt_of_lt_of_le hi hN, fun rest => ?_⟩
  cases l with
  | nil => cases hx
  | cons y l =>
    have hm : i % (l.length + 1) = i := Nat.mod_eq_of_lt hi
    show ((.ok _ : Py α), rest) = _
    congr 2
    simp only [List.cons_append, List.nil_append, List.headD_cons, hm]

theorem can_random {N k : ℕ} (hk : k < N) : Can N (uniRand N).random (k / N) := by
  refine ⟨[k], by simpa using hk, fun rest => ?_⟩
  show ((.ok _ : Py ℚ), rest) = _
  simp [Nat.mod_eq_of_lt hk]

/-- a program that never fails can return something -/
theorem Can.of_draws {N : ℕ} (hN : 0 < N) {k : ℕ} {m : M Tape α} (h : Draws k m) (hok : ∀ w, ∃ x w', m w = (.ok x, w')) : ∃ x, Can N m x := by
  induction h with
  | done r h =>
    obtain ⟨x, w', hx⟩ := hok []
    rw [h] at hx
    cases hx
    exact ⟨x, [], by simp, fun rest => h _⟩
  | @draw k m f h hf ih =>
    obtain ⟨x, t, h1, h2⟩ := ih 0 (fun w => by
      obtain ⟨x, w', hx⟩ := hok (0 :: w)
      rw [h] at hx
      exact ⟨x, w', hx⟩)
    refine ⟨x, 0 :: t, ?_, fun rest => ?_⟩
    · intro i hi
      rcases List.mem_cons.1 hi with rfl | hi
      · exact hN
      · exact h1 i hi
    · rw [h]
      exact h2 rest

/-- what a program can return it returns with positive probability -/
theorem Can.prob_pos {N : ℕ} (hN : 0 < N) {m : M Tape α} {x : α} [DecidablePred (fun r : Py α => r = .ok x)] (h : Can N m x) : ∃ L0, ∀ L, L0 ≤ L → 0 < prob N L m (fun r => r = .ok x) := by
  obtain ⟨t0, h1, h2⟩ := h
  refine ⟨t0.length, fun L hL => ?_⟩
  unfold prob avg
  refine div_pos ?_ (pow_pos (by exact_mod_cast hN) _)
  set tp : Tape := t0 ++ List.replicate (L - t0.length) 0 with htp
  have hlen : tp.length = L := by simp [htp]; omega
  have hlt : ∀ i (hi : i < L), tp[i]'(by omega) < N := by
    intro i hi
    have hmem : tp[i]'(by omega) ∈ tp := List.getElem_mem _
    rcases List.mem_append.1 hmem with hm | hm
    · exact h1 _ hm
    · rw [List.eq_of_mem_replicate hm]; exact hN
  refine Finset.sum_pos' (fun t _ => by beta_reduce; split_ifs <;> norm_num) ⟨fun i => ⟨tp[i.1]'(by omega), hlt i.1 i.2⟩, Finset.mem_univ _, ?_⟩
  have hof : List.ofFn (fun i : Fin L => tp[i.1]'(by omega)) = tp := by
    apply List.ext_getElem
    · simp [hlen]
    · intro i h1 h2; simp
  simp only [hof]
  rw [htp, h2]
  simp

/-- a result of positive probability is returned for some draws -/
theorem exists_of_prob_pos {N L : ℕ} {m : M Tape α} {E : Py α → Prop} [DecidablePred E] (h : 0 < prob N L m E) : ∃ w, E (m w).1 := by
  by_contra hn
  push Not at hn
  refine absurd h (not_lt.2 (le_of_eq ?_))
  unfold prob avg
  rw [Finset.sum_eq_zero fun t _ => if_neg (hn _), zero_div]

end GC

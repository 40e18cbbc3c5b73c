import Verif.Props.Locality
import Verif.Props.Seed
import Verif.Props.Warnings

/-!
# How many districts a locality may meet (C30), more chunks than districts (C44), and the warnings of `add_data` (C111)
-/

set_option linter.unusedSectionVars false
set_option autoImplicit false

namespace GC

variable {V : Type} [LinearOrder V]

theorem foldlM_setAll {f : String → ℤ} : ∀ (l : List String) (d : Dict String ℤ),
    ∃ d', l.foldlM (fun (d : Dict String ℤ) x => (.ok (d.set x (f x)) : Py (Dict String ℤ))) d = .ok d' ∧
      ∀ x, d'.get? x = if x ∈ l then some (f x) else d.get? x
  | [], d => ⟨d, rfl, by simp⟩
  | y :: l, d => by
    obtain ⟨d', h1, h2⟩ := foldlM_setAll l (d.set y (f y))
    refine ⟨d', h1, fun x => ?_⟩
    rw [h2 x]
    by_cases hx : x ∈ l
    · simp [hx]
    · by_cases hy : x = y
      · subst hy
        simp [hx, Dict.get?_set]
      · simp [hx, hy, Dict.get?_set]

/-- **C30** (allowed pieces) `LocalitySplits` allows a locality exactly as many pieces as districts of ideal population are needed to hold its population: `r` is
the least whole number of them.  It has an entry for each locality and no other. -/
theorem C30_allowed_pieces (nodes : Finset V) (col : V → String) (pop : V → ℚ) (localities : List String) (n : ℕ) (hn : 0 < n) (htot : 0 < nodes.sum pop) :
    ∃ d, allowedPieces nodes col pop localities n = .ok d ∧ (∀ loc, loc ∈ localities ↔ ∃ r, d.get? loc = some r) ∧
      ∀ loc r, d.get? loc = some r → ∀ k : ℤ, r ≤ k ↔ ∑ v ∈ nodes.filter (fun v => col v = loc), pop v ≤ k * (nodes.sum pop / n) := by
  obtain ⟨d, h1, h2⟩ := foldlM_setAll (f := fun loc => ⌈(nodes.filter (fun v => col v = loc)).sum pop / (nodes.sum pop / n)⌉) localities Dict.empty
  have hne : ¬ (n = 0 ∨ nodes.sum pop = 0) := by
    rintro (h | h)
    · omega
    · exact htot.ne' h
  refine ⟨d, ?_, fun loc => ?_, fun loc r h k => ?_⟩
  · unfold allowedPieces
    simp only [if_neg hne]
    exact h1
  · rw [h2 loc]
    by_cases h : loc ∈ localities
    · simp [h]
    · rw [if_neg h]
      simp [h, Dict.get?, Dict.empty]
  · rw [h2 loc] at h
    have hq : (0 : ℚ) < nodes.sum pop / n := div_pos htot (by exact_mod_cast hn)
    by_cases hl : loc ∈ localities
    · rw [if_pos hl] at h
      cases h
      rw [Int.ceil_le, div_le_iff₀ hq]
    · rw [if_neg hl] at h
      simp [Dict.get?, Dict.empty] at h

/-- a locality with three of the four inhabitants may meet two of two districts, one with one of them only one -/
example : allowedPieces ({0, 1, 2, 3} : Finset ℕ) (fun v => if v = 3 then "B" else "A") (fun _ => 1) ["A", "B"] 2 = .ok ⟨[("A", 2), ("B", 1)]⟩ := by
  decide +kernel

/-- **C44** (more chunks than districts) `get_seed_chunks` raises `ZeroDivisionError` before it draws a random number. -/
theorem C44_too_many_chunks {S : Type} (method : Method V S) (fuel : ℕ) (G : Graph V) (pop : V → ℚ) (m n : ℕ) (h : n < m) (target eps : ℚ) (w : S) :
    seedChunks method fuel G pop m n target eps w = (.error .zeroDivision, w) := by
  unfold seedChunks
  rw [Nat.div_eq_of_lt h]
  simp only [zero_mul, if_true]
  rfl

/-- three chunks of two districts -/
example : (seedChunks (bipMethod tapeRand treeSpan 1 (some 5) (fun _ _ => (none : Option ℕ)) none false 9 (fun _ => 1)) 3 exLine (fun _ => 1) 3 2 3 (1 / 10) []).1 =
    .error .zeroDivision := by
  rw [C44_too_many_chunks _ _ _ _ 3 2 (by decide)]

/-- **C111** (`add_data`) `Graph.add_data` warns about exactly those of the columns asked for that have a missing value, also if it then raises because two rows
have the same label; it warns about nothing if a column does not exist. -/
theorem C111_add_data {W : Type} (isNa : W → Bool) (nodes : Finset V) (df : DataFrame V W) (columns : Option (List String)) (attrs : V → Dict String W) (w : GraphWarning V) :
    w ∈ (addDataWarned isNa nodes df columns attrs).2 ↔
      (∀ c ∈ columns.getD df.columns, c ∈ df.columns) ∧ ∃ c ∈ columns.getD df.columns, w = .na c ∧ ∃ r ∈ df.rows, isNa (r.2 c) = true := by
  unfold addDataWarned DataFrame.select
  by_cases h : ∀ c ∈ columns.getD df.columns, c ∈ df.columns
  · rw [if_pos (by simpa using h)]
    have e : w ∈ checkDataframe isNa (⟨columns.getD df.columns, df.rows⟩ : DataFrame V W) ↔
        (∀ c ∈ columns.getD df.columns, c ∈ df.columns) ∧ ∃ c ∈ columns.getD df.columns, w = .na c ∧ ∃ r ∈ df.rows, isNa (r.2 c) = true := by
      rw [mem_checkDataframe]
      constructor
      · rintro ⟨c, h1, h2, h3⟩
        exact ⟨h, c, h2, h1, h3⟩
      · rintro ⟨-, c, h2, h1, h3⟩
        exact ⟨c, h1, h2, h3⟩
    dsimp only
    rcases df.toDictIndex with e' | d <;> exact e
  · rw [if_neg (by simpa using h)]
    simp [h]

/-- two rows with the label 0, one value missing: a warning and then the error -/
example : (addDataWarned (W := Option ℕ) Option.isNone ({0, 1} : Finset ℕ) ⟨["a", "b"], [(0, fun c => if c = "a" then none else some 1), (0, fun _ => some 2)]⟩ (some ["a"])
      (fun _ => Dict.empty)).2 = [.na "a"] := by
  rfl

end GC

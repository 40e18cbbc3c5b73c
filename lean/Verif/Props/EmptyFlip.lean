import Verif.Props.SingleFlip

/-!
# C25: children made by an empty flip
-/

set_option linter.unusedSectionVars false
set_option autoImplicit false

namespace GC

variable {V P : Type} [LinearOrder V] [DecidableEq P]

/-- **C25 (empty flips).** A child made by `partition.flip({})` changes no district, and all three contiguity checks accept it without looking at any
district, whatever the plan, the search budget and the random draws. -/
theorem C25_empty_flip (F : Frame V P) (ord : SetOrder P) {p q : ℕ} {v w : View V P} (hv : F.view p = some v) (hq : v.parent = some q)
    (hw : F.view q = some w) (hf : v.flips = some Dict.empty) (fuel : ℕ) (adj : Dict V (List V)) (adjOf : P → Dict V (List V)) (draw : V → ℕ) :
    contiguous ord F p = .ok true ∧ contiguousBfs fuel ord adjOf F p = some (.ok true) ∧
    singleFlipContiguous fuel ord adj draw F p = some (.ok true) := by
  have he : ord.list ∅ = [] := List.eq_nil_iff_forall_not_mem.2 fun x hx => by simpa using (ord.mem ∅ x).1 hx
  have ha : affectedParts ord F v = .ok [] := by
    unfold affectedParts
    rw [hf, hq]
    simp only [hw]
    rw [← he]
    rfl
  have hc : contiguous ord F p = .ok true := by
    unfold contiguous
    rw [hv]
    simp only [ha]
    rfl
  refine ⟨hc, ?_, ?_⟩
  · unfold contiguousBfs
    rw [hv]
    simp only [ha]
    rfl
  · unfold singleFlipContiguous
    rw [hv]
    simp only [hf, hc]
    rcases (F.truthyParent v).bind F.view with _ | u <;> rfl

/-- the hypotheses of `C25_empty_flip` can be met, by a plan with the disconnected district {0, 3}: the check refuses it as an initial plan and
accepts its child -/
example : ∃ v w, (Heap.after exData3 exUps [.create ⟨[(0, 1), (1, 2), (2, 3), (3, 1), (4, 2)]⟩, .flip 0 Dict.empty]).frame.view 1 = some v ∧
    v.parent = some 0 ∧ v.flips = some Dict.empty ∧
    (Heap.after exData3 exUps [.create ⟨[(0, 1), (1, 2), (2, 3), (3, 1), (4, 2)]⟩, .flip 0 Dict.empty]).frame.view 0 = some w ∧
    contiguous natOrd (Heap.after exData3 exUps [.create ⟨[(0, 1), (1, 2), (2, 3), (3, 1), (4, 2)]⟩, .flip 0 Dict.empty]).frame 0 = .ok false := by
  obtain ⟨F, hF⟩ : ∃ F, F = (Heap.after exData3 exUps [.create ⟨[(0, 1), (1, 2), (2, 3), (3, 1), (4, 2)]⟩, .flip 0 Dict.empty]).frame := ⟨_, rfl⟩
  have h : (F.view 1).map (fun w => (w.parent, w.flips)) = some (some 0, some Dict.empty) := by rw [hF]; decide +kernel
  have h' : (F.view 0).isSome := by rw [hF]; decide +kernel
  obtain ⟨v, hv, hv'⟩ := Option.map_eq_some_iff.1 h
  obtain ⟨w, hw⟩ := Option.isSome_iff_exists.1 h'
  simp only [Prod.mk.injEq] at hv'
  exact ⟨v, w, hF ▸ hv, hv'.1, hv'.2, hF ▸ hw, by decide +kernel⟩

end GC

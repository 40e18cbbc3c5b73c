import Verif.Lemmas.WalkSeries

/-!
# Generating functions for loop-erased walks

`pathSeries f D path v`: the walk has the loop-erased path `path` and stands at `v`; the coefficients are the probabilities that the tree built in
the end has the parent function `f`.  Nothing here mentions the modelled code.
-/

set_option linter.unusedSectionVars false
set_option autoImplicit false

namespace GC

open PowerSeries

variable {V : Type} [DecidableEq V] (U : Finset V) (N : V → Finset V)

/-- `exists_hit_on` as a function -/
structure IsHit (D : Finset V) (x : V) (κ : V → ℚ⟦X⟧) : Prop where
  self : κ x = 1
  out : ∀ v ∉ D, κ v = 0
  step : ∀ v ∈ D, v ≠ x → κ v = stepSeries (N v).card * ∑ w ∈ N v, κ w
  det : (1 - stepSeries (N x).card * ∑ w ∈ N x, κ w) * walkDet U N (D.erase x) = walkDet U N D

open Classical in
noncomputable def hitSeries (D : Finset V) (x : V) : V → ℚ⟦X⟧ := if h : ∃ κ, IsHit U N D x κ then h.choose else fun _ => 0

theorem hitSeries_spec {U : Finset V} {N : V → Finset V} (hN : ∀ v ∈ U, N v ⊆ U) {D : Finset V} (hD : D ⊆ U) {x : V} (hx : x ∈ D) :
    IsHit U N D x (hitSeries U N D x) := by
  have h : ∃ κ, IsHit U N D x κ := by
    obtain ⟨κ, h1, h2, h3, h4⟩ := exists_hit_on hN hD hx
    exact ⟨κ, h1, h2, h3, h4⟩
  unfold hitSeries
  rw [dif_pos h]
  exact h.choose_spec

/-- the probabilities that the tree is completed in the given way, when the nodes of `D` are not yet in the tree -/
noncomputable def treeSeries (D : Finset V) : ℚ⟦X⟧ :=
  (∏ v ∈ D, stepSeries (N v).card) * (walkDet U N D)⁻¹ * PowerSeries.mk (fun _ => (1 : ℚ))

noncomputable def pathSeries (f : V → V) : Finset V → List V → V → ℚ⟦X⟧
  | _, [], _ => 0
  | D, x :: rest, v => hitSeries U N D x v * treeSeries U N D +
      open Classical in if ∀ y ∈ rest.head?, f x = y then pathSeries f (D.erase x) rest v else 0

variable {U N}

theorem treeSeries_empty (L : ℕ) : coeff L (treeSeries U N ∅) = 1 := by
  have h : (walkDet U N ∅)⁻¹ = 1 := by
    have := PowerSeries.mul_inv_cancel (walkDet U N ∅) (by rw [walkDet_const]; exact one_ne_zero)
    rw [walkDet_empty, one_mul] at this
    rw [walkDet_empty, this]
  rw [treeSeries, Finset.prod_empty, h, one_mul, one_mul, coeff_mk]

theorem treeSeries_step {D : Finset V} {x : V} (hx : x ∈ D) {κ : V → ℚ⟦X⟧} (h : IsHit U N D x κ) :
    treeSeries U N D = stepSeries (N x).card * (∑ w ∈ N x, κ w) * treeSeries U N D + stepSeries (N x).card * treeSeries U N (D.erase x) := by
  have h1 := PowerSeries.mul_inv_cancel (walkDet U N D) (by rw [walkDet_const]; exact one_ne_zero)
  have h2 := PowerSeries.mul_inv_cancel (walkDet U N (D.erase x)) (by rw [walkDet_const]; exact one_ne_zero)
  have h3 := h.det
  have hp : ∏ v ∈ D, stepSeries (N v).card = stepSeries (N x).card * ∏ v ∈ D.erase x, stepSeries (N v).card :=
    (Finset.mul_prod_erase _ _ hx).symm
  unfold treeSeries
  rw [hp]
  set c := stepSeries (N x).card
  set s := ∑ w ∈ N x, κ w
  set P := ∏ v ∈ D.erase x, stepSeries (N v).card
  set W := walkDet U N D
  set W' := walkDet U N (D.erase x)
  have key : (1 - c * s) * W⁻¹ = W'⁻¹ := by
    calc (1 - c * s) * W⁻¹ = ((1 - c * s) * W') * W⁻¹ * W'⁻¹ := by linear_combination (-(1 - c * s) * W⁻¹) * h2
      _ = W * W⁻¹ * W'⁻¹ := by rw [h3]
      _ = W'⁻¹ := by rw [h1, one_mul]
  linear_combination (c * P * PowerSeries.mk (fun _ => (1 : ℚ))) * key

theorem pathSeries_out (hN : ∀ v ∈ U, N v ⊆ U) (f : V → V) : ∀ (path : List V) (D : Finset V) (v : V), path.Nodup → D ⊆ U → (∀ x ∈ path, x ∈ D) → v ∉ D →
    pathSeries U N f D path v = 0 := by
  intro path
  induction path with
  | nil => intro D v _ _ _ _; rfl
  | cons x rest ih =>
    intro D v hnd hD hp hv
    rw [List.nodup_cons] at hnd
    rw [pathSeries, (hitSeries_spec hN hD (hp x (by simp))).out v hv, zero_mul, zero_add]
    rw [ih (D.erase x) v hnd.2 ((Finset.erase_subset _ _).trans hD) (fun y hy => Finset.mem_erase.2 ⟨fun h => hnd.1 (h ▸ hy), hp y (by simp [hy])⟩)
      (fun h => hv (Finset.mem_of_mem_erase h)), ite_self]

/-- at a node of the path the rest of the path does not matter -/
theorem pathSeries_cut (hN : ∀ v ∈ U, N v ⊆ U) (f : V → V) : ∀ (p1 p2 : List V) (D : Finset V) (w : V), (p1 ++ w :: p2).Nodup → D ⊆ U →
    (∀ x ∈ p1 ++ w :: p2, x ∈ D) → pathSeries U N f D (p1 ++ w :: p2) w = pathSeries U N f D (p1 ++ [w]) w := by
  intro p1
  induction p1 with
  | nil =>
    intro p2 D w hnd hD hp
    rw [List.nil_append, List.nil_append, pathSeries, pathSeries]
    rw [List.nil_append, List.nodup_cons] at hnd
    rw [pathSeries_out hN f p2 (D.erase w) w hnd.2 ((Finset.erase_subset _ _).trans hD)
      (fun y hy => Finset.mem_erase.2 ⟨fun h => hnd.1 (h ▸ hy), hp y (by simp [hy])⟩) (Finset.notMem_erase _ _), ite_self]
    simp [pathSeries]
  | cons x p1 ih =>
    intro p2 D w hnd hD hp
    rw [List.cons_append, List.nodup_cons] at hnd
    rw [List.cons_append, List.cons_append, pathSeries, pathSeries]
    rw [ih p2 (D.erase x) w hnd.2 ((Finset.erase_subset _ _).trans hD)
      (fun y hy => Finset.mem_erase.2 ⟨fun h => hnd.1 (h ▸ hy), hp y (by simp only [List.cons_append, List.mem_cons]; exact Or.inr hy)⟩)]
    have : (p1 ++ w :: p2).head? = (p1 ++ [w]).head? := by cases p1 <;> rfl
    rw [this]

/-- the path gets longer -/
theorem pathSeries_append (hN : ∀ v ∈ U, N v ⊆ U) (f : V → V) : ∀ (path : List V) (D : Finset V) (u w : V), path.getLast? = some u → (path ++ [w]).Nodup → D ⊆ U →
    (∀ x ∈ path ++ [w], x ∈ D) → pathSeries U N f D (path ++ [w]) w = pathSeries U N f D path w +
      open Classical in if List.IsChain (fun a b => f a = b) path ∧ f u = w then treeSeries U N (D \ path.toFinset) else 0 := by
  intro path
  induction path with
  | nil => intro D u w h; simp at h
  | cons x rest ih =>
    intro D u w hu hnd hD hp
    rw [List.cons_append, List.nodup_cons] at hnd
    have hD' := (Finset.erase_subset x D).trans hD
    have hp' : ∀ y ∈ rest ++ [w], y ∈ D.erase x :=
      fun y hy => Finset.mem_erase.2 ⟨fun h => hnd.1 (h ▸ hy), hp y (by simp only [List.cons_append, List.mem_cons]; exact Or.inr hy)⟩
    rw [List.cons_append, pathSeries, pathSeries]
    cases rest with
    | nil =>
      simp only [List.getLast?_singleton, Option.some.injEq] at hu
      subst hu
      have hw : w ∈ D.erase x := hp' w (by simp)
      have e : D \ [x].toFinset = D.erase x := by
        ext y; simp [Finset.mem_erase, and_comm]
      have e2 : pathSeries U N f (D.erase x) [w] w = treeSeries U N (D.erase x) := by
        rw [pathSeries, (hitSeries_spec hN hD' hw).self]
        simp [pathSeries]
      rw [e, List.nil_append, e2]
      simp [pathSeries]
    | cons y rest =>
      have hu' : (y :: rest).getLast? = some u := by rw [List.getLast?_cons_cons] at hu; exact hu
      have e : D \ (x :: y :: rest).toFinset = (D.erase x) \ (y :: rest).toFinset := by
        ext z; simp only [List.toFinset_cons, Finset.mem_sdiff, Finset.mem_insert, Finset.mem_erase]; tauto
      rw [ih (D.erase x) u w hu' hnd.2 hD' hp', e]
      simp only [List.cons_append, List.head?_cons, Option.mem_def, Option.some.injEq, forall_eq', List.isChain_cons_cons]
      by_cases hfx : f x = y
      · simp only [hfx, if_true, true_and]
        rw [add_assoc]
      · simp only [hfx, if_false, false_and]
        simp

/-- the equation for one step of the walk -/
theorem pathSeries_step (hN : ∀ v ∈ U, N v ⊆ U) (f : V → V) : ∀ (path : List V) (D : Finset V) (u : V), path.getLast? = some u → path.Nodup → D ⊆ U →
    (∀ x ∈ path, x ∈ D) → f u ∈ N u → pathSeries U N f D path u = stepSeries (N u).card * ∑ w ∈ N u, (pathSeries U N f D path w +
      open Classical in if List.IsChain (fun a b => f a = b) path ∧ f u = w then treeSeries U N (D \ path.toFinset) else 0) := by
  intro path
  induction path with
  | nil => intro D u h; simp at h
  | cons x rest ih =>
    intro D u hu hnd hD hp hf
    rw [List.nodup_cons] at hnd
    have hx : x ∈ D := hp x (by simp)
    have hH := hitSeries_spec hN hD hx
    have hD' := (Finset.erase_subset x D).trans hD
    have hp' : ∀ y ∈ rest, y ∈ D.erase x := fun y hy => Finset.mem_erase.2 ⟨fun h => hnd.1 (h ▸ hy), hp y (by simp [hy])⟩
    cases rest with
    | nil =>
      simp only [List.getLast?_singleton, Option.some.injEq] at hu
      subst hu
      have e : D \ [x].toFinset = D.erase x := by
        ext y; simp [Finset.mem_erase, and_comm]
      rw [e]
      simp only [pathSeries, ite_self, add_zero, List.isChain_singleton, true_and]
      rw [hH.self, one_mul, Finset.sum_add_distrib, ← Finset.sum_mul, Finset.sum_ite_eq, if_pos hf]
      have := treeSeries_step hx hH
      linear_combination this
    | cons y rest =>
      have hu' : (y :: rest).getLast? = some u := by rw [List.getLast?_cons_cons] at hu; exact hu
      have hmem : u ∈ y :: rest := List.mem_of_getLast? hu'
      have hux : u ≠ x := fun h => hnd.1 (h ▸ hmem)
      have e : D \ (x :: y :: rest).toFinset = (D.erase x) \ (y :: rest).toFinset := by
        ext z; simp only [List.toFinset_cons, Finset.mem_sdiff, Finset.mem_insert, Finset.mem_erase]; tauto
      have hind := ih (D.erase x) u hu' hnd.2 hD' hp' hf
      have hh := hH.step u (hp u (by simp only [List.mem_cons] at hmem ⊢; tauto)) hux
      rw [e]
      have hhead : (∀ z ∈ (y :: rest).head?, f x = z) ↔ f x = y := by simp
      by_cases hfx : f x = y
      · have e1 : ∀ w, pathSeries U N f D (x :: y :: rest) w = hitSeries U N D x w * treeSeries U N D + pathSeries U N f (D.erase x) (y :: rest) w := by
          intro w; rw [pathSeries, if_pos (hhead.2 hfx)]
        simp only [e1, List.isChain_cons_cons (l := rest) (a := x), hfx, true_and]
        rw [hind, hh]
        have : ∀ w, hitSeries U N D x w * treeSeries U N D + pathSeries U N f (D.erase x) (y :: rest) w +
            (open Classical in if List.IsChain (fun a b => f a = b) (y :: rest) ∧ f u = w then treeSeries U N ((D.erase x) \ (y :: rest).toFinset) else 0) =
            hitSeries U N D x w * treeSeries U N D + (pathSeries U N f (D.erase x) (y :: rest) w +
            (open Classical in if List.IsChain (fun a b => f a = b) (y :: rest) ∧ f u = w then treeSeries U N ((D.erase x) \ (y :: rest).toFinset) else 0)) :=
          fun w => add_assoc _ _ _
        simp only [this]
        simp only [Finset.sum_add_distrib, ← Finset.sum_mul]
        ring
      · have e1 : ∀ w, pathSeries U N f D (x :: y :: rest) w = hitSeries U N D x w * treeSeries U N D := by
          intro w; rw [pathSeries, if_neg (fun h => hfx (hhead.1 h)), add_zero]
        simp only [e1, List.isChain_cons_cons (l := rest) (a := x), hfx, false_and, if_false, add_zero]
        rw [hh, ← Finset.sum_mul]
        ring

end GC

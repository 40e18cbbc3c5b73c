import Verif.Props.KruskalLaw
import Mathlib.Order.Fin.Basic

/-!
# The orders of the edges as lists

The share of the orders for which `random_spanning_tree` returns a tree with a property can be found by listing the orders.
-/

set_option linter.unusedSectionVars false
set_option autoImplicit false

namespace GC

open Finset

variable {V : Type} [LinearOrder V]

theorem sorted_inj {es : List (V × V)} (hn : es.Nodup) :
    Function.Injective (fun σ : Equiv.Perm (Fin es.length) => byWeight (tapeWeight es (fun i => (σ i : ℕ))) es) := by
  intro σ σ' h
  simp only at h
  set o := byWeight (tapeWeight es (fun i => (σ i : ℕ))) es with ho
  have p1 : o.Pairwise (fun a b => tapeWeight es (fun i => (σ i : ℕ)) a ≤ tapeWeight es (fun i => (σ i : ℕ)) b) := byWeight_sorted _ es
  have p2 : o.Pairwise (fun a b => tapeWeight es (fun i => (σ' i : ℕ)) a ≤ tapeWeight es (fun i => (σ' i : ℕ)) b) := by
    rw [h]
    exact byWeight_sorted _ es
  have hmem : ∀ i : Fin es.length, es[i] ∈ o := fun i => (byWeight_perm _ es).mem_iff.2 (List.getElem_mem _)
  have key : ∀ i j : Fin es.length, (σ i ≤ σ j ∧ σ' i ≤ σ' j) ∨ (σ j ≤ σ i ∧ σ' j ≤ σ' i) := by
    intro i j
    by_cases hij : i = j
    · subst hij
      exact .inl ⟨le_refl _, le_refl _⟩
    · have hne : es[i] ≠ es[j] := fun e => hij (Fin.ext ((hn.getElem_inj_iff).1 e))
      set R : V × V → V × V → Prop := fun a b =>
        (tapeWeight es (fun i => (σ i : ℕ)) a ≤ tapeWeight es (fun i => (σ i : ℕ)) b ∧ tapeWeight es (fun i => (σ' i : ℕ)) a ≤ tapeWeight es (fun i => (σ' i : ℕ)) b) ∨
        (tapeWeight es (fun i => (σ i : ℕ)) b ≤ tapeWeight es (fun i => (σ i : ℕ)) a ∧ tapeWeight es (fun i => (σ' i : ℕ)) b ≤ tapeWeight es (fun i => (σ' i : ℕ)) a)
        with hR
      have hp : o.Pairwise R := (p1.and p2).imp (fun h => .inl h)
      have hsym : Std.Symm R := ⟨fun _ _ h => Or.symm h⟩
      have := hp.forall (hmem i) (hmem j) hne
      simp only [hR] at this
      rw [tapeWeight_get hn, tapeWeight_get hn, tapeWeight_get hn, tapeWeight_get hn] at this
      simpa only [Nat.cast_le, Fin.val_fin_le] using this
  have hmono : ∀ i j, σ i ≤ σ j ↔ σ' i ≤ σ' j := by
    intro i j
    rcases key i j with ⟨a, b⟩ | ⟨a, b⟩
    · exact ⟨fun _ => b, fun _ => a⟩
    · constructor
      · intro h1
        have : i = j := σ.injective (le_antisymm h1 a)
        rw [this]
      · intro h1
        have : i = j := σ'.injective (le_antisymm h1 b)
        rw [this]
  have hiso : ∀ f : Fin es.length ≃o Fin es.length, ∀ i, f i = i := by
    intro f i
    have : f = OrderIso.refl _ := Subsingleton.elim _ _
    rw [this]
    rfl
  refine Equiv.ext (fun i => ?_)
  have := hiso ⟨σ.symm.trans σ', fun {a b} => by
    show σ' (σ.symm a) ≤ σ' (σ.symm b) ↔ a ≤ b
    rw [← hmono, σ.apply_symm_apply, σ.apply_symm_apply]⟩ (σ i)
  have h2 : σ' (σ.symm (σ i)) = σ i := this
  rw [σ.symm_apply_apply] at h2
  exact h2.symm

/-- the orders counted as permutations and as lists -/
theorem card_orders {es : List (V × V)} (hn : es.Nodup) (p : Finset (V × V) → Prop) [DecidablePred p] :
    #{σ : Equiv.Perm (Fin es.length) | p (tapeTree es (fun i => (σ i : ℕ)))} = es.permutations'.countP (fun o => decide (p (greedyTree o))) := by
  classical
  set F := (fun σ : Equiv.Perm (Fin es.length) => byWeight (tapeWeight es (fun i => (σ i : ℕ))) es) with hF
  have hnd : es.permutations'.Nodup := (List.permutations_perm_permutations' es).nodup_iff.1 (List.nodup_permutations es hn)
  have hcard : es.permutations'.toFinset.card = es.length.factorial := by
    rw [List.toFinset_card_of_nodup hnd, ← (List.permutations_perm_permutations' es).length_eq, List.length_permutations]
  have himg : (univ : Finset (Equiv.Perm (Fin es.length))).image F = es.permutations'.toFinset := by
    refine Finset.eq_of_subset_of_card_le ?_ ?_
    · intro o ho
      obtain ⟨σ, -, rfl⟩ := mem_image.1 ho
      rw [List.mem_toFinset, List.mem_permutations']
      exact byWeight_perm _ es
    · rw [hcard, Finset.card_image_of_injective _ (sorted_inj hn), card_univ, Fintype.card_perm, Fintype.card_fin]
  have h1 : #{σ : Equiv.Perm (Fin es.length) | p (tapeTree es (fun i => (σ i : ℕ)))} = #(es.permutations'.toFinset.filter (fun o => p (greedyTree o))) := by
    rw [← himg, Finset.filter_image, Finset.card_image_of_injective _ (sorted_inj hn)]
    rfl
  rw [h1, List.countP_eq_length_filter, ← List.toFinset_card_of_nodup (hnd.filter _)]
  congr 1
  ext o
  simp

end GC

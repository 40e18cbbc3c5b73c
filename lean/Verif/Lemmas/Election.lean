import Verif.Model.Election
import Verif.Lemmas.Assignment

/-!
# Lemmas about `ElectionResults`
-/

set_option linter.unusedSectionVars false
set_option autoImplicit false

namespace GC

variable {P : Type} [DecidableEq P]

theorem Py.mapM_ok {A B : Type} {f : A → Py B} {g : A → B} {l : List A} (h : ∀ a ∈ l, f a = .ok (g a)) :
    l.mapM f = .ok (l.map g) := by
  induction l with
  | nil => rfl
  | cons a l ih =>
    rw [List.mapM_cons, h a List.mem_cons_self]
    simp only [bind, Except.bind]
    rw [ih (fun a ha => h a (List.mem_cons_of_mem _ ha))]
    rfl

/-- what `getPercents` returns when every count is there -/
theorem getPercents_ok {counts totals : Dict P Num} (ht : totals.WF)
    (h : ∀ p t, totals.get? p = some t → Num.gt t 0 = true → ∃ c, counts.get? p = some c) :
    ∃ d, getPercents counts totals = .ok d ∧ ∀ p t, totals.get? p = some t →
      d.get? p = some (if Num.gt t 0 then (match counts.get? p, t with
        | some (some c), some t => some (c / t) | _, _ => ⊥) else ⊥) := by
  obtain ⟨l⟩ := totals
  unfold getPercents
  simp only
  have key : ∀ (l' : List (P × Num)) (d0 : Dict P Num), (∀ e ∈ l', Num.gt e.2 0 = true → ∃ c, counts.get? e.1 = some c) →
      (l'.map (·.1)).Nodup →
      ∃ d, l'.foldlM (fun (d : Dict P Num) e => do
        if Num.gt e.2 0 then
          let c ← counts.get e.1
          let x ← Num.div c e.2
          return d.set e.1 x
        else return d.set e.1 ⊥) d0 = (.ok d : Py (Dict P Num)) ∧
      (∀ p, p ∉ l'.map (·.1) → d.get? p = d0.get? p) ∧ ∀ e ∈ l', d.get? e.1 = some (if Num.gt e.2 0 then (match counts.get? e.1, e.2 with
        | some (some c), some t => some (c / t) | _, _ => ⊥) else ⊥) := by
    intro l'
    induction l' with
    | nil => intro d0 _ _; exact ⟨d0, rfl, fun _ _ => rfl, by simp⟩
    | cons e l' ih =>
      intro d0 hc hn
      simp only [List.map_cons, List.nodup_cons] at hn
      have hstep : ∃ x, x = (if Num.gt e.2 0 then (match counts.get? e.1, e.2 with
          | some (some c), some t => some (c / t) | _, _ => ⊥) else ⊥) ∧
          (do
            if Num.gt e.2 0 then
              let c ← counts.get e.1
              let x ← Num.div c e.2
              return d0.set e.1 x
            else return d0.set e.1 ⊥ : Py (Dict P Num)) = .ok (d0.set e.1 x) := by
        by_cases hg : Num.gt e.2 0 = true
        · obtain ⟨c, hc'⟩ := hc e List.mem_cons_self hg
          rw [if_pos hg, if_pos hg, Dict.get_eq_ok_iff.2 hc', hc']
          simp only [bind, Except.bind]
          rcases he : e.2 with _ | t
          · rw [he] at hg; simp [Num.gt] at hg
          · rw [he] at hg
            have ht0 : @Ne Num (some t) 0 := by
              intro ht0
              rw [ht0] at hg
              exact absurd hg (by decide)
            rcases c with _ | c
            · refine ⟨⊥, rfl, ?_⟩
              have : Num.div none (some t) = .ok ⊥ := by unfold Num.div; rw [if_neg ht0]
              rw [this]; rfl
            · refine ⟨_, rfl, ?_⟩
              have : Num.div (some c) (some t) = .ok (some (c / t)) := by unfold Num.div; rw [if_neg ht0]
              rw [this]; rfl
        · rw [if_neg hg, if_neg hg]
          exact ⟨_, rfl, rfl⟩
      obtain ⟨x, hx, hs⟩ := hstep
      obtain ⟨d, h1, h2, h3⟩ := ih (d0.set e.1 x) (fun e he => hc e (List.mem_cons_of_mem _ he)) hn.2
      refine ⟨d, ?_, ?_, ?_⟩
      · rw [List.foldlM_cons, hs]
        exact h1
      · intro p hp
        simp only [List.map_cons, List.mem_cons, not_or] at hp
        rw [h2 p hp.2, Dict.get?_set_ne _ _ hp.1]
      · intro e' he'
        rcases List.mem_cons.1 he' with rfl | he'
        · rw [h2 _ hn.1, Dict.get?_set_self, hx]
        · exact h3 e' he'
  obtain ⟨d, h1, -, h3⟩ := key l Dict.empty (fun e he hg => h e.1 e.2 (Dict.get?_of_mem_entries ht he) hg) ht
  refine ⟨d, h1, fun p t hp => h3 (p, t) (Dict.mem_entries_of_get? hp)⟩

end GC

import Verif.Spec.Assignment

set_option linter.unusedSectionVars false

set_option autoImplicit false

namespace GC

variable {V P : Type} [LinearOrder V] [DecidableEq P]

/-! ### Except helpers -/

theorem Py.bind_eq_ok {α β : Type} {x : Py α} {f : α → Py β} {b : β} :
    (x >>= f) = .ok b ↔ ∃ a, x = .ok a ∧ f a = .ok b := by
  rcases x with e | a
  · simp [bind, Except.bind]
  · simp [bind, Except.bind]

theorem Py.bind_eq_error {α β : Type} {x : Py α} {f : α → Py β} {e : PyErr} :
    (x >>= f) = .error e ↔ x = .error e ∨ ∃ a, x = .ok a ∧ f a = .error e := by
  rcases x with e' | a
  · simp [bind, Except.bind]
  · simp [bind, Except.bind]

@[simp] theorem Py.pure_eq_ok {α : Type} {a b : α} : (pure a : Py α) = .ok b ↔ a = b := by
  simp [pure, Except.pure]

@[simp] theorem Py.pure_ne_error {α : Type} {a : α} {e : PyErr} : (pure a : Py α) ≠ .error e := by
  simp [pure, Except.pure]

/-! ### assignAll -/

theorem foldl_set_get? (l : List V) (m : Dict V P) (p : P) (v : V) :
    (l.foldl (fun m node => m.set node p) m).get? v = if v ∈ l then some p else m.get? v := by
  induction l generalizing m with
  | nil => simp
  | cons x xs ih =>
    rw [List.foldl_cons, ih]
    by_cases h : v ∈ xs
    · simp [h]
    · by_cases hx : v = x
      · subst hx; simp [h]
      · simp [h, hx, Dict.get?_set]

theorem get?_assignAll (m : Dict V P) (s : Finset V) (p : P) (v : V) :
    (assignAll m s p).get? v = if v ∈ s then some p else m.get? v := by
  unfold assignAll
  rw [foldl_set_get?]
  simp

theorem wf_foldl_set (l : List V) {m : Dict V P} (p : P) (hm : m.WF) :
    (l.foldl (fun m node => m.set node p) m).WF := by
  induction l generalizing m with
  | nil => exact hm
  | cons x xs ih => exact ih (hm.set _ _)

theorem Dict.WF.assignAll {m : Dict V P} (hm : m.WF) (s : Finset V) (p : P) : (assignAll m s p).WF :=
  wf_foldl_set _ _ hm

/-! ### mappingOfParts -/

theorem foldl_assignAll_get? (l : List (P × Finset V)) (m : Dict V P) (v : V) :
    (∃ e ∈ l, v ∈ e.2 ∧ (l.foldl (fun m e => assignAll m e.2 e.1) m).get? v = some e.1) ∨
    ((∀ e ∈ l, v ∉ e.2) ∧ (l.foldl (fun m e => assignAll m e.2 e.1) m).get? v = m.get? v) := by
  induction l generalizing m with
  | nil => right; simp
  | cons x xs ih =>
    rw [List.foldl_cons]
    rcases ih (assignAll m x.2 x.1) with ⟨e, he, h1, h2⟩ | ⟨h1, h2⟩
    · left; exact ⟨e, List.mem_cons_of_mem _ he, h1, h2⟩
    · rw [get?_assignAll] at h2
      by_cases hx : v ∈ x.2
      · left; refine ⟨x, List.mem_cons_self, hx, ?_⟩
        rw [h2, if_pos hx]
      · right
        rw [if_neg hx] at h2
        refine ⟨?_, h2⟩
        intro e he
        rcases List.mem_cons.1 he with rfl | he
        · exact hx
        · exact h1 e he

theorem wf_mappingOfParts (parts : Dict P (Finset V)) : (mappingOfParts parts).WF := by
  unfold mappingOfParts
  generalize parts.entries = l
  have : (Dict.empty : Dict V P).WF := Dict.wf_empty
  revert this
  generalize (Dict.empty : Dict V P) = m
  intro hm
  induction l generalizing m with
  | nil => exact hm
  | cons x xs ih => exact ih _ (hm.assignAll _ _)

theorem get?_mappingOfParts {parts : Dict P (Finset V)} (hwf : parts.WF)
    (hdisj : ∀ p q s t, parts.get? p = some s → parts.get? q = some t → ∀ v, v ∈ s → v ∈ t → p = q)
    (v : V) (p : P) :
    (mappingOfParts parts).get? v = some p ↔ ∃ s, parts.get? p = some s ∧ v ∈ s := by
  have key := foldl_assignAll_get? parts.entries (Dict.empty : Dict V P) v
  change (∃ e ∈ parts.entries, v ∈ e.2 ∧ (mappingOfParts parts).get? v = some e.1) ∨
    ((∀ e ∈ parts.entries, v ∉ e.2) ∧ (mappingOfParts parts).get? v = _) at key
  rcases key with ⟨⟨q, t⟩, he, hv, h⟩ | ⟨h1, h2⟩
  · rw [h]
    have ht := Dict.get?_of_mem_entries hwf he
    constructor
    · intro hqp
      simp only [Option.some.injEq] at hqp
      subst hqp
      exact ⟨t, ht, hv⟩
    · rintro ⟨s, hs, hvs⟩
      rw [hdisj q p t s ht hs v hv hvs]
  · rw [h2]
    simp only [Dict.get?_empty, reduceCtorEq, false_iff, not_exists, not_and]
    intro s hs
    exact h1 (p, s) (Dict.mem_entries_of_get? hs)

/-! ### levelSets -/

theorem levelSets_fold (l : List (V × P)) (d : Dict P (Finset V)) (p : P) (v : V) :
    v ∈ ((l.foldl (fun sets e => sets.modifyD e.2 ∅ (insert e.1)) d).get? p).getD ∅ ↔
      v ∈ (d.get? p).getD ∅ ∨ (v, p) ∈ l := by
  induction l generalizing d with
  | nil => simp
  | cons x xs ih =>
    rw [List.foldl_cons, ih, Dict.get?_modifyD]
    obtain ⟨a, q⟩ := x
    by_cases hp : p = q
    · subst hp
      simp
      tauto
    · simp [hp]

theorem wf_levelSets (d : Dict V P) : (levelSets d).WF := by
  unfold levelSets
  generalize d.entries = l
  have : (Dict.empty : Dict P (Finset V)).WF := Dict.wf_empty
  revert this
  generalize (Dict.empty : Dict P (Finset V)) = m
  intro hm
  induction l generalizing m with
  | nil => exact hm
  | cons x xs ih => exact ih _ (hm.modifyD _ _ _)

theorem keys_levelSets_fold (l : List (V × P)) (d : Dict P (Finset V)) (p : P) :
    p ∈ (l.foldl (fun sets e => sets.modifyD e.2 ∅ (insert e.1)) d).keys ↔ p ∈ d.keys ∨ ∃ v, (v, p) ∈ l := by
  induction l generalizing d with
  | nil => simp
  | cons x xs ih =>
    rw [List.foldl_cons, ih]
    obtain ⟨a, q⟩ := x
    simp only [Dict.modifyD, Dict.mem_keys_set, List.mem_cons, Prod.mk.injEq]
    constructor
    · rintro ((rfl | h) | ⟨v, h⟩)
      · exact Or.inr ⟨a, Or.inl ⟨rfl, rfl⟩⟩
      · exact Or.inl h
      · exact Or.inr ⟨v, Or.inr h⟩
    · rintro (h | ⟨v, (⟨rfl, rfl⟩ | h)⟩)
      · exact Or.inl (Or.inr h)
      · exact Or.inl (Or.inl rfl)
      · exact Or.inr ⟨v, h⟩

theorem mem_levelSets {d : Dict V P} (hd : d.WF) {p : P} {s : Finset V} (h : (levelSets d).get? p = some s) (v : V) :
    v ∈ s ↔ d.get? v = some p := by
  have := levelSets_fold d.entries Dict.empty p v
  change v ∈ ((levelSets d).get? p).getD ∅ ↔ _ at this
  rw [h] at this
  simp only [Option.getD_some, Dict.get?_empty, Option.getD_none, Finset.notMem_empty, false_or] at this
  rw [this, Dict.mem_entries_iff hd]

theorem mem_keys_levelSets {d : Dict V P} (hd : d.WF) {p : P} :
    p ∈ (levelSets d).keys ↔ ∃ v, d.get? v = some p := by
  unfold levelSets
  rw [keys_levelSets_fold]
  simp only [Dict.keys_empty, List.not_mem_nil, false_or]
  constructor
  · rintro ⟨v, h⟩; exact ⟨v, Dict.get?_of_mem_entries hd h⟩
  · rintro ⟨v, h⟩; exact ⟨v, Dict.mem_entries_of_get? h⟩

/-! ### sizes -/

theorem mem_foldl_union (l : List (Finset V)) (acc : Finset V) (v : V) :
    v ∈ l.foldl (· ∪ ·) acc ↔ v ∈ acc ∨ ∃ s ∈ l, v ∈ s := by
  induction l generalizing acc with
  | nil => simp
  | cons x xs ih => rw [List.foldl_cons, ih]; simp [or_assoc]

theorem mem_partsUnion (parts : Dict P (Finset V)) (v : V) :
    v ∈ partsUnion parts ↔ ∃ s ∈ parts.values, v ∈ s := by
  unfold partsUnion; rw [mem_foldl_union]; simp

theorem card_foldl_union (l : List (Finset V)) (acc : Finset V)
    (hacc : ∀ s ∈ l, Disjoint acc s) (hl : l.Pairwise Disjoint) :
    (l.foldl (· ∪ ·) acc).card = acc.card + (l.map Finset.card).sum := by
  induction l generalizing acc with
  | nil => simp
  | cons x xs ih =>
    rw [List.foldl_cons, ih]
    · rw [Finset.card_union_of_disjoint (hacc x List.mem_cons_self)]
      simp [add_assoc]
    · intro s hs
      rw [Finset.disjoint_union_left]
      exact ⟨hacc s (List.mem_cons_of_mem _ hs), (List.pairwise_cons.1 hl).1 s hs⟩
    · exact (List.pairwise_cons.1 hl).2

theorem card_foldl_union_le (l : List (Finset V)) (acc : Finset V) :
    (l.foldl (· ∪ ·) acc).card ≤ acc.card + (l.map Finset.card).sum := by
  induction l generalizing acc with
  | nil => simp
  | cons x xs ih =>
    rw [List.foldl_cons]
    refine (ih _).trans ?_
    have := Finset.card_union_le acc x
    simp only [List.map_cons, List.sum_cons]
    omega

theorem pairwise_disjoint_values {parts : Dict P (Finset V)} (hwf : parts.WF)
    (hdisj : ∀ p q s t, parts.get? p = some s → parts.get? q = some t → ∀ v, v ∈ s → v ∈ t → p = q) :
    parts.values.Pairwise Disjoint := by
  unfold Dict.values
  rw [List.pairwise_map]
  have h1 : parts.entries.Pairwise (fun a b => a.1 ≠ b.1) := by
    have := hwf
    unfold Dict.WF Dict.keys at this
    exact List.pairwise_map.1 this
  refine (List.Pairwise.and_mem.1 h1).imp ?_
  rintro ⟨p, s⟩ ⟨q, t⟩ ⟨hp, hq, hne⟩
  rw [Finset.disjoint_left]
  intro v hv hv'
  exact hne (hdisj p q s t (Dict.get?_of_mem_entries hwf hp) (Dict.get?_of_mem_entries hwf hq) v hv hv')

theorem partsLen_eq_card {parts : Dict P (Finset V)} (hwf : parts.WF)
    (hdisj : ∀ p q s t, parts.get? p = some s → parts.get? q = some t → ∀ v, v ∈ s → v ∈ t → p = q) :
    partsLen parts = (partsUnion parts).card := by
  unfold partsLen partsUnion
  rw [card_foldl_union]
  · simp
  · intro s _; exact Finset.disjoint_empty_left s
  · exact pairwise_disjoint_values hwf hdisj

/-! ### construction -/

theorem fromDict_ok {d : Dict V P} (hd : d.WF) :
    ∃ a, Assignment.fromDict d = .ok a ∧ a.Coherent ∧ (∀ v, a.mapping.get? v = d.get? v) ∧
      a.parts = levelSets d := by
  have hdisj : ∀ p q s t, (levelSets d).get? p = some s → (levelSets d).get? q = some t →
      ∀ v, v ∈ s → v ∈ t → p = q := by
    intro p q s t hs ht v hv hv'
    rw [mem_levelSets hd hs] at hv
    rw [mem_levelSets hd ht] at hv'
    rw [hv] at hv'; exact Option.some.inj hv'
  refine ⟨⟨levelSets d, mappingOfParts (levelSets d)⟩, ?_, ?_, ?_, rfl⟩
  · unfold Assignment.fromDict Assignment.init
    rw [partsLen_eq_card (wf_levelSets d) hdisj]
    simp [Dict.empty]
  · refine ⟨wf_levelSets d, wf_mappingOfParts _, ?_, ?_⟩
    · intro p s hs v
      simp only at hs ⊢
      rw [get?_mappingOfParts (wf_levelSets d) hdisj]
      constructor
      · exact fun hv => ⟨s, hs, hv⟩
      · rintro ⟨t, ht, hv⟩
        rw [hs] at ht; cases ht; exact hv
    · intro v p hv
      simp only at hv ⊢
      rw [get?_mappingOfParts (wf_levelSets d) hdisj] at hv
      obtain ⟨s, hs, _⟩ := hv
      exact Dict.mem_keys_iff.2 ⟨s, hs⟩
  · intro v
    apply Option.ext
    intro p
    show (mappingOfParts (levelSets d)).get? v = some p ↔ _
    rw [get?_mappingOfParts (wf_levelSets d) hdisj]
    constructor
    · rintro ⟨s, hs, hv⟩
      exact (mem_levelSets hd hs v).1 hv
    · intro h
      obtain ⟨s, hs⟩ := Dict.mem_keys_iff.1 ((mem_keys_levelSets hd).2 ⟨v, h⟩)
      exact ⟨s, hs, (mem_levelSets hd hs v).2 h⟩

theorem Assignment.Coherent.disj {a : Assignment V P} (ha : a.Coherent) :
    ∀ p q s t, a.parts.get? p = some s → a.parts.get? q = some t → ∀ v, v ∈ s → v ∈ t → p = q := by
  intro p q s t hs ht v hv hv'
  rw [ha.agree p s hs] at hv
  rw [ha.agree q t ht] at hv'
  rw [hv] at hv'; exact Option.some.inj hv'

theorem Assignment.Coherent.mem_partOf {a : Assignment V P} (ha : a.Coherent) (p : P) (v : V) :
    v ∈ a.partOf p ↔ a.mapping.get? v = some p := by
  unfold Assignment.partOf
  rcases h : a.parts.get? p with _ | s
  · simp only [Option.getD_none, Finset.notMem_empty, false_iff]
    intro hv
    exact Dict.get?_eq_none_iff.1 h (ha.complete v p hv)
  · simp only [Option.getD_some]
    exact ha.agree p s h v

/-- Copying a coherent assignment gives an equal assignment, up to the order of an empty mapping. -/
theorem copy_ok {a : Assignment V P} (ha : a.Coherent) :
    ∃ b, a.copy = .ok b ∧ b.Coherent ∧ b.parts = a.parts ∧ ∀ v, b.mapping.get? v = a.mapping.get? v := by
  unfold Assignment.copy Assignment.init
  by_cases h : a.mapping.entries.isEmpty
  · have hnone : ∀ v, a.mapping.get? v = none := by
      intro v
      rw [List.isEmpty_iff] at h
      simp [Dict.get?, h]
    have hget : ∀ v, (mappingOfParts a.parts).get? v = none := by
      intro v
      rcases hm : (mappingOfParts a.parts).get? v with _ | p
      · rfl
      · rw [get?_mappingOfParts ha.parts_wf ha.disj] at hm
        obtain ⟨s, hs, hv⟩ := hm
        rw [ha.agree p s hs, hnone] at hv
        cases hv
    refine ⟨⟨a.parts, mappingOfParts a.parts⟩, by simp [h], ?_, rfl, ?_⟩
    · refine ⟨ha.parts_wf, wf_mappingOfParts _, ?_, ?_⟩
      · intro p s hs v
        simp only
        rw [hget, ha.agree p s hs, hnone]
      · intro v p hv
        simp only at hv
        rw [hget] at hv; cases hv
    · intro v; rw [hnone, hget]
  · exact ⟨a, by simp [h], ha, rfl, fun _ => rfl⟩

/-! ### flows -/

theorem flowIn_modifyD {α : Type} [DecidableEq α] (d : Dict P (Flow α)) (k p : P) (f : Flow α → Flow α) :
    flowIn (d.modifyD k Flow.create f) p =
      if p = k then (f ((d.get? k).getD Flow.create)).inn else flowIn d p := by
  unfold flowIn; rw [Dict.get?_modifyD]; split <;> rfl

theorem flowOut_modifyD {α : Type} [DecidableEq α] (d : Dict P (Flow α)) (k p : P) (f : Flow α → Flow α) :
    flowOut (d.modifyD k Flow.create f) p =
      if p = k then (f ((d.get? k).getD Flow.create)).out else flowOut d p := by
  unfold flowOut; rw [Dict.get?_modifyD]; split <;> rfl

theorem mem_flowIn_addIn {α : Type} [DecidableEq α] (d : Dict P (Flow α)) (k p : P) (x y : α) :
    y ∈ flowIn (d.modifyD k Flow.create (Flow.addIn x)) p ↔ y ∈ flowIn d p ∨ (p = k ∧ y = x) := by
  rw [flowIn_modifyD]
  split
  · rename_i h; subst h
    simp only [Flow.addIn, Finset.mem_insert, flowIn]
    tauto
  · rename_i h; simp [h]

theorem mem_flowOut_addIn {α : Type} [DecidableEq α] (d : Dict P (Flow α)) (k p : P) (x : α) :
    flowOut (d.modifyD k Flow.create (Flow.addIn x)) p = flowOut d p := by
  rw [flowOut_modifyD]
  split
  · rename_i h; subst h; rfl
  · rfl

theorem mem_flowOut_addOut {α : Type} [DecidableEq α] (d : Dict P (Flow α)) (k p : P) (x y : α) :
    y ∈ flowOut (d.modifyD k Flow.create (Flow.addOut x)) p ↔ y ∈ flowOut d p ∨ (p = k ∧ y = x) := by
  rw [flowOut_modifyD]
  split
  · rename_i h; subst h
    simp only [Flow.addOut, Finset.mem_insert, flowOut]
    tauto
  · rename_i h; simp [h]

theorem mem_flowIn_addOut {α : Type} [DecidableEq α] (d : Dict P (Flow α)) (k p : P) (x : α) :
    flowIn (d.modifyD k Flow.create (Flow.addOut x)) p = flowIn d p := by
  rw [flowIn_modifyD]
  split
  · rename_i h; subst h; rfl
  · rfl

theorem flowsStep_ok {old : Dict V P} {flows flows' : Dict P (Flow V)} {e : V × P}
    (h : flowsStep old flows e = .ok flows') :
    (∃ q, old.get? e.1 = some q ∧
      (∀ v p, v ∈ flowIn flows' p ↔ v ∈ flowIn flows p ∨ (v = e.1 ∧ p = e.2 ∧ q ≠ p)) ∧
      (∀ v p, v ∈ flowOut flows' p ↔ v ∈ flowOut flows p ∨ (v = e.1 ∧ p = q ∧ e.2 ≠ p)) ∧
      (∀ p, p ∈ flows'.keys ↔ p ∈ flows.keys ∨ (q ≠ e.2 ∧ (p = q ∨ p = e.2))) ∧
      (flows.WF → flows'.WF)) := by
  unfold flowsStep at h
  rw [Py.bind_eq_ok] at h
  obtain ⟨q, hq, h⟩ := h
  refine ⟨q, Dict.get_eq_ok_iff.1 hq, ?_⟩
  by_cases hne : q ≠ e.2
  · rw [if_pos hne] at h
    simp only [Py.pure_eq_ok] at h
    subst h
    refine ⟨?_, ?_, ?_, ?_⟩
    · intro v p
      rw [mem_flowIn_addOut, mem_flowIn_addIn]
      constructor
      · rintro (h | ⟨rfl, rfl⟩)
        · exact Or.inl h
        · exact Or.inr ⟨rfl, rfl, hne⟩
      · rintro (h | ⟨rfl, rfl, _⟩)
        · exact Or.inl h
        · exact Or.inr ⟨rfl, rfl⟩
    · intro v p
      rw [mem_flowOut_addOut, mem_flowOut_addIn]
      constructor
      · rintro (h | ⟨rfl, rfl⟩)
        · exact Or.inl h
        · exact Or.inr ⟨rfl, rfl, fun h => hne h.symm⟩
      · rintro (h | ⟨rfl, rfl, _⟩)
        · exact Or.inl h
        · exact Or.inr ⟨rfl, rfl⟩
    · intro p
      simp only [Dict.modifyD, Dict.mem_keys_set]
      tauto
    · intro hw; exact (hw.modifyD _ _ _).modifyD _ _ _
  · rw [if_neg hne] at h
    simp only [Py.pure_eq_ok] at h
    subst h
    simp only [ne_eq, not_not] at hne
    refine ⟨?_, ?_, ?_, id⟩
    · intro v p
      constructor
      · exact Or.inl
      · rintro (h | ⟨_, rfl, h⟩)
        · exact h
        · exact absurd hne h
    · intro v p
      constructor
      · exact Or.inl
      · rintro (h | ⟨_, rfl, h⟩)
        · exact h
        · exact absurd hne.symm h
    · intro p
      constructor
      · exact Or.inl
      · rintro (h | ⟨h, _⟩)
        · exact h
        · exact absurd hne h

theorem flowsStep_error {old : Dict V P} {flows : Dict P (Flow V)} {x : V × P} {e : PyErr}
    (h : flowsStep old flows x = .error e) : old.get? x.1 = none ∧ e = .keyError := by
  unfold flowsStep at h
  rw [Py.bind_eq_error] at h
  rcases h with h | ⟨q, _, h⟩
  · exact Dict.get_eq_error_iff.1 h
  · split at h <;> simp at h

theorem flows_fold_ok {old : Dict V P} (l : List (V × P)) {flows flows' : Dict P (Flow V)}
    (h : l.foldlM (flowsStep old) flows = .ok flows') :
    (∀ e ∈ l, ∃ q, old.get? e.1 = some q) ∧
      (∀ v p, v ∈ flowIn flows' p ↔ v ∈ flowIn flows p ∨ ((v, p) ∈ l ∧ old.get? v ≠ some p)) ∧
      (∀ v p, v ∈ flowOut flows' p ↔ v ∈ flowOut flows p ∨ (old.get? v = some p ∧ ∃ q, (v, q) ∈ l ∧ q ≠ p)) ∧
      (∀ p, p ∈ flows'.keys ↔ p ∈ flows.keys ∨
        ∃ v q, (v, q) ∈ l ∧ old.get? v ≠ some q ∧ (p = q ∨ old.get? v = some p)) ∧
      (flows.WF → flows'.WF) := by
  induction l generalizing flows with
  | nil =>
    simp only [List.foldlM_nil, Py.pure_eq_ok] at h
    subst h
    simp
  | cons x xs ih =>
    rw [List.foldlM_cons, Py.bind_eq_ok] at h
    obtain ⟨mid, h1, h2⟩ := h
    obtain ⟨a1, a2, a3, a4, a5⟩ := ih h2
    obtain ⟨q, hq, b2, b3, b4, b5⟩ := flowsStep_ok h1
    obtain ⟨x1, x2⟩ := x
    simp only at hq b2 b3 b4
    refine ⟨?_, ?_, ?_, ?_, fun hw => a5 (b5 hw)⟩
    · intro e he
      rcases List.mem_cons.1 he with rfl | he
      · exact ⟨q, hq⟩
      · exact a1 e he
    · intro v p
      rw [a2, b2]
      simp only [List.mem_cons, Prod.mk.injEq]
      constructor
      · rintro ((h | ⟨rfl, rfl, h⟩) | ⟨h, h'⟩)
        · exact Or.inl h
        · refine Or.inr ⟨Or.inl ⟨rfl, rfl⟩, ?_⟩
          rw [hq]; simpa using h
        · exact Or.inr ⟨Or.inr h, h'⟩
      · rintro (h | ⟨(⟨rfl, rfl⟩ | h), h'⟩)
        · exact Or.inl (Or.inl h)
        · refine Or.inl (Or.inr ⟨rfl, rfl, ?_⟩)
          rw [hq] at h'; simpa using h'
        · exact Or.inr ⟨h, h'⟩
    · intro v p
      rw [a3, b3]
      simp only [List.mem_cons, Prod.mk.injEq]
      constructor
      · rintro ((h | ⟨rfl, rfl, h⟩) | ⟨h, r, h1, h2⟩)
        · exact Or.inl h
        · exact Or.inr ⟨hq, x2, Or.inl ⟨rfl, rfl⟩, h⟩
        · exact Or.inr ⟨h, r, Or.inr h1, h2⟩
      · rintro (h | ⟨h, r, (⟨rfl, rfl⟩ | h1), h2⟩)
        · exact Or.inl (Or.inl h)
        · refine Or.inl (Or.inr ⟨rfl, ?_, h2⟩)
          rw [hq] at h; exact (Option.some.inj h).symm
        · exact Or.inr ⟨h, r, h1, h2⟩
    · intro p
      rw [a4, b4]
      simp only [List.mem_cons, Prod.mk.injEq]
      constructor
      · rintro ((h | ⟨h, h'⟩) | ⟨v, r, h, h', h''⟩)
        · exact Or.inl h
        · refine Or.inr ⟨x1, x2, Or.inl ⟨rfl, rfl⟩, ?_, ?_⟩
          · rw [hq]; simpa using h
          · rw [hq]
            rcases h' with rfl | h'
            · exact Or.inr rfl
            · exact Or.inl h'
        · exact Or.inr ⟨v, r, Or.inr h, h', h''⟩
      · rintro (h | ⟨v, r, (⟨rfl, rfl⟩ | h), h', h''⟩)
        · exact Or.inl (Or.inl h)
        · refine Or.inl (Or.inr ⟨?_, ?_⟩)
          · rw [hq] at h'; simpa using h'
          · rcases h'' with h'' | h''
            · exact Or.inr h''
            · rw [hq] at h''; exact Or.inl (Option.some.inj h'').symm
        · exact Or.inr ⟨v, r, h, h', h''⟩

theorem flows_fold_error {old : Dict V P} (l : List (V × P)) {flows : Dict P (Flow V)} {e : PyErr}
    (h : l.foldlM (flowsStep old) flows = .error e) :
    e = .keyError ∧ ∃ x ∈ l, old.get? x.1 = none := by
  induction l generalizing flows with
  | nil => simp at h
  | cons x xs ih =>
    rw [List.foldlM_cons, Py.bind_eq_error] at h
    rcases h with h | ⟨mid, _, h⟩
    · obtain ⟨h1, h2⟩ := flowsStep_error h
      exact ⟨h2, x, List.mem_cons_self, h1⟩
    · obtain ⟨h1, y, hy, h2⟩ := ih h
      exact ⟨h1, y, List.mem_cons_of_mem _ hy, h2⟩

/-- What `flows_from_changes` returns, for a well-formed flips dictionary. -/
structure FlowsSpec (old flips : Dict V P) (flows : Dict P (Flow V)) : Prop where
  wf : flows.WF
  known : ∀ v p, flips.get? v = some p → ∃ q, old.get? v = some q
  mem_in : ∀ v p, v ∈ flowIn flows p ↔ flips.get? v = some p ∧ old.get? v ≠ some p
  mem_out : ∀ v p, v ∈ flowOut flows p ↔ old.get? v = some p ∧ ∃ q, flips.get? v = some q ∧ q ≠ p
  mem_keys : ∀ p, p ∈ flows.keys ↔
    ∃ v q, flips.get? v = some q ∧ old.get? v ≠ some q ∧ (p = q ∨ old.get? v = some p)

theorem flowsFromChanges_ok {old flips : Dict V P} (hf : flips.WF) {flows : Dict P (Flow V)}
    (h : flowsFromChanges old flips = .ok flows) : FlowsSpec old flips flows := by
  obtain ⟨a1, a2, a3, a4, a5⟩ := flows_fold_ok _ h
  refine ⟨a5 Dict.wf_empty, ?_, ?_, ?_, ?_⟩
  · intro v p hv
    exact a1 (v, p) (Dict.mem_entries_of_get? hv)
  · intro v p
    rw [a2, Dict.mem_entries_iff hf]
    simp [flowIn, Flow.create]
  · intro v p
    rw [a3]
    simp [flowOut, Flow.create, Dict.mem_entries_iff hf]
  · intro p
    rw [a4]
    simp [Dict.mem_entries_iff hf]

theorem flowsFromChanges_error {old flips : Dict V P} {e : PyErr}
    (h : flowsFromChanges old flips = .error e) :
    e = .keyError ∧ ∃ v ∈ flips.keys, old.get? v = none := by
  obtain ⟨h1, x, hx, h2⟩ := flows_fold_error _ h
  exact ⟨h1, x.1, List.mem_map.2 ⟨x, hx, rfl⟩, h2⟩

/-! ### update_flows -/

theorem applyFlow_ok {a b : Assignment V P} {e : P × Flow V} (h : a.applyFlow e = .ok b) :
    ∃ s, a.parts.get? e.1 = some s ∧ b.parts = a.parts.set e.1 ((s \ e.2.out) ∪ e.2.inn) ∧
      b.mapping = assignAll a.mapping e.2.inn e.1 := by
  unfold Assignment.applyFlow at h
  rw [Py.bind_eq_ok] at h
  obtain ⟨s, hs, h⟩ := h
  simp only [Py.pure_eq_ok] at h
  subst h
  exact ⟨s, Dict.get_eq_ok_iff.1 hs, rfl, rfl⟩

theorem applyFlow_error {a : Assignment V P} {x : P × Flow V} {e : PyErr} (h : a.applyFlow x = .error e) :
    e = .keyError ∧ x.1 ∉ a.parts.keys := by
  unfold Assignment.applyFlow at h
  rw [Py.bind_eq_error] at h
  rcases h with h | ⟨s, _, h⟩
  · obtain ⟨h1, h2⟩ := Dict.get_eq_error_iff.1 h
    exact ⟨h2, Dict.get?_eq_none_iff.1 h1⟩
  · simp at h

theorem updateFlows_fold_ok (l : List (P × Flow V)) (hnd : (l.map (·.1)).Nodup) {a b : Assignment V P}
    (h : l.foldlM Assignment.applyFlow a = .ok b) :
    (∀ p, p ∈ b.parts.keys ↔ p ∈ a.parts.keys) ∧ (∀ e ∈ l, e.1 ∈ a.parts.keys) ∧
    (∀ e ∈ l, ∃ s, a.parts.get? e.1 = some s ∧ b.parts.get? e.1 = some ((s \ e.2.out) ∪ e.2.inn)) ∧
    (∀ p, p ∉ l.map (·.1) → b.parts.get? p = a.parts.get? p) ∧
    (∀ v, (∃ e ∈ l, v ∈ e.2.inn ∧ b.mapping.get? v = some e.1) ∨
      ((∀ e ∈ l, v ∉ e.2.inn) ∧ b.mapping.get? v = a.mapping.get? v)) ∧
    (a.parts.WF → b.parts.WF) ∧ (a.mapping.WF → b.mapping.WF) ∧ b.parts.keys = a.parts.keys := by
  induction l generalizing a with
  | nil =>
    simp only [List.foldlM_nil, Py.pure_eq_ok] at h
    subst h
    simp
  | cons x xs ih =>
    rw [List.foldlM_cons, Py.bind_eq_ok] at h
    obtain ⟨mid, h1, h2⟩ := h
    simp only [List.map_cons, List.nodup_cons] at hnd
    obtain ⟨c1, c2, c3, c4, c5, c6, c7, c8⟩ := ih hnd.2 h2
    obtain ⟨s, hs, hp, hm⟩ := applyFlow_ok h1
    have hxk : x.1 ∈ a.parts.keys := Dict.mem_keys_iff.2 ⟨s, hs⟩
    have hkeys : ∀ p, p ∈ mid.parts.keys ↔ p ∈ a.parts.keys := by
      intro p
      rw [hp, Dict.mem_keys_set]
      constructor
      · rintro (rfl | h)
        · exact hxk
        · exact h
      · exact Or.inr
    refine ⟨?_, ?_, ?_, ?_, ?_, ?_, ?_, ?_⟩
    · intro p; rw [c1, hkeys]
    · intro e he
      rcases List.mem_cons.1 he with rfl | he
      · exact hxk
      · exact (hkeys _).1 (c2 e he)
    · intro e he
      rcases List.mem_cons.1 he with rfl | he
      · refine ⟨s, hs, ?_⟩
        rw [c4 _ hnd.1, hp, Dict.get?_set_self]
      · obtain ⟨t, ht, ht'⟩ := c3 e he
        refine ⟨t, ?_, ht'⟩
        rw [hp, Dict.get?_set_ne] at ht
        · exact ht
        · rintro h
          exact hnd.1 (List.mem_map.2 ⟨e, he, h⟩)
    · intro p hp'
      simp only [List.map_cons, List.mem_cons, not_or] at hp'
      rw [c4 p hp'.2, hp, Dict.get?_set_ne _ _ hp'.1]
    · intro v
      rcases c5 v with ⟨e, he, h1, h2⟩ | ⟨h1, h2⟩
      · exact Or.inl ⟨e, List.mem_cons_of_mem _ he, h1, h2⟩
      · rw [hm, get?_assignAll] at h2
        by_cases hv : v ∈ x.2.inn
        · rw [if_pos hv] at h2
          exact Or.inl ⟨x, List.mem_cons_self, hv, h2⟩
        · rw [if_neg hv] at h2
          refine Or.inr ⟨?_, h2⟩
          intro e he
          rcases List.mem_cons.1 he with rfl | he
          · exact hv
          · exact h1 e he
    · intro hw; apply c6; rw [hp]; exact hw.set _ _
    · intro hw; apply c7; rw [hm]; exact hw.assignAll _ _
    · rw [c8, hp, Dict.keys_set, if_pos hxk]

theorem updateFlows_fold_error (l : List (P × Flow V)) {a : Assignment V P} {e : PyErr}
    (h : l.foldlM Assignment.applyFlow a = .error e) :
    e = .keyError ∧ ∃ x ∈ l, x.1 ∉ a.parts.keys := by
  induction l generalizing a with
  | nil => simp at h
  | cons x xs ih =>
    rw [List.foldlM_cons, Py.bind_eq_error] at h
    rcases h with h | ⟨mid, h1, h⟩
    · obtain ⟨h1, h2⟩ := applyFlow_error h
      exact ⟨h1, x, List.mem_cons_self, h2⟩
    · obtain ⟨h2, y, hy, hy'⟩ := ih h
      refine ⟨h2, y, List.mem_cons_of_mem _ hy, fun hk => hy' ?_⟩
      obtain ⟨s, hs, hp, _⟩ := applyFlow_ok h1
      rw [hp, Dict.mem_keys_set]
      exact Or.inr hk

/-! ### flip -/

/-- Everything `flip` does to an assignment. -/
structure FlipSpec (a : Assignment V P) (flips : Dict V P) (b : Assignment V P) : Prop where
  coherent : b.Coherent
  get? : ∀ v, b.mapping.get? v = (flips.get? v).or (a.mapping.get? v)
  known : ∀ v p, flips.get? v = some p → ∃ q, a.mapping.get? v = some q
  keys : b.parts.keys = a.parts.keys

theorem flip_of_steps {a b : Assignment V P} (ha : a.Coherent) {flips : Dict V P} (hf : flips.WF)
    {flows : Dict P (Flow V)} (hflows : flowsFromChanges a.mapping flips = .ok flows)
    (h : a.updateFlows flows = .ok b) : FlipSpec a flips b := by
  have hs := flowsFromChanges_ok hf hflows
  obtain ⟨c1, c2, c3, c4, c5, c6, c7, c8⟩ := updateFlows_fold_ok flows.entries hs.wf h
  have hin : ∀ e ∈ flows.entries, e.2.inn = flowIn flows e.1 := by
    intro e he
    unfold flowIn
    rw [Dict.get?_of_mem_entries hs.wf he]; rfl
  have hout : ∀ e ∈ flows.entries, e.2.out = flowOut flows e.1 := by
    intro e he
    unfold flowOut
    rw [Dict.get?_of_mem_entries hs.wf he]; rfl
  have hget : ∀ v, b.mapping.get? v = (flips.get? v).or (a.mapping.get? v) := by
    intro v
    rcases c5 v with ⟨e, he, h1, h2⟩ | ⟨h1, h2⟩
    · rw [hin e he, hs.mem_in] at h1
      rw [h2, h1.1]; rfl
    · rw [h2]
      rcases hfl : flips.get? v with _ | p
      · rfl
      · by_cases hav : a.mapping.get? v = some p
        · rw [hav]; rfl
        · exfalso
          have hvin : v ∈ flowIn flows p := (hs.mem_in v p).2 ⟨hfl, hav⟩
          have hpk : p ∈ flows.keys := (hs.mem_keys p).2 ⟨v, p, hfl, hav, Or.inl rfl⟩
          obtain ⟨fl, hfl'⟩ := Dict.mem_keys_iff.1 hpk
          have he := Dict.mem_entries_of_get? hfl'
          apply h1 _ he
          rw [hin _ he]
          exact hvin
  refine ⟨⟨c6 ha.parts_wf, c7 ha.mapping_wf, ?_, ?_⟩, hget, hs.known, c8⟩
  · intro p s hps v
    rw [hget]
    by_cases hpk : p ∈ flows.keys
    · obtain ⟨fl, hfl⟩ := Dict.mem_keys_iff.1 hpk
      have he := Dict.mem_entries_of_get? hfl
      obtain ⟨t, ht, ht'⟩ := c3 _ he
      simp only at ht ht'
      rw [hps] at ht'
      cases ht'
      have h1 := hin _ he
      have h2 := hout _ he
      simp only at h1 h2
      rw [Finset.mem_union, Finset.mem_sdiff, h1, h2, hs.mem_in, hs.mem_out, ha.agree p t ht]
      rcases hfv : flips.get? v with _ | q
      · simp
      · simp only [Option.some.injEq, exists_eq_left', Option.some_or]
        tauto
    · have hpk' : p ∉ flows.entries.map (·.1) := hpk
      rw [c4 p hpk'] at hps
      rw [ha.agree p s hps]
      rcases hfv : flips.get? v with _ | q
      · simp
      · simp only [Option.some_or, Option.some.injEq]
        have := fun h => hpk ((hs.mem_keys p).2 h)
        constructor
        · intro hav
          by_contra hne
          apply this
          refine ⟨v, q, hfv, ?_, Or.inr hav⟩
          rw [hav]; intro h; exact hne (Option.some.inj h).symm
        · rintro rfl
          by_contra hne
          exact this ⟨v, q, hfv, hne, Or.inl rfl⟩
  · intro v p hv
    rw [c1]
    rw [hget] at hv
    rcases hfv : flips.get? v with _ | q
    · rw [hfv] at hv
      exact ha.complete v p hv
    · rw [hfv] at hv
      simp only [Option.some_or, Option.some.injEq] at hv
      subst hv
      by_cases hav : a.mapping.get? v = some q
      · exact ha.complete v q hav
      · have hpk : q ∈ flows.keys := (hs.mem_keys q).2 ⟨v, q, hfv, hav, Or.inl rfl⟩
        obtain ⟨fl, hfl⟩ := Dict.mem_keys_iff.1 hpk
        exact c2 _ (Dict.mem_entries_of_get? hfl)

theorem flip_ok {a b : Assignment V P} (ha : a.Coherent) {flips : Dict V P} (hf : flips.WF)
    (h : a.flip flips = .ok b) : FlipSpec a flips b := by
  unfold Assignment.flip at h
  rw [Py.bind_eq_ok] at h
  obtain ⟨flows, hflows, h⟩ := h
  rw [Py.bind_eq_ok] at h
  obtain ⟨a', ha', h⟩ := h
  obtain ⟨a'', h1, h2, h3, h4⟩ := copy_ok ha
  rw [ha'] at h1
  cases h1
  have hcong : flowsFromChanges a'.mapping flips = flowsFromChanges a.mapping flips := by
    unfold flowsFromChanges
    congr 1
    funext flows e
    unfold flowsStep Dict.get
    rw [h4]
  rw [← hcong] at hflows
  have := flip_of_steps h2 hf hflows h
  refine ⟨this.coherent, ?_, ?_, ?_⟩
  · intro v; rw [this.get?, h4]
  · intro v p hv; rw [← h4]; exact this.known v p hv
  · rw [this.keys, h3]

theorem flip_error {a : Assignment V P} (ha : a.Coherent) {flips : Dict V P} (hf : flips.WF) {e : PyErr}
    (h : a.flip flips = .error e) :
    e = .keyError ∧ ((∃ v ∈ flips.keys, v ∉ a.mapping.keys) ∨ ∃ p ∈ flips.values, p ∉ a.parts.keys) := by
  unfold Assignment.flip at h
  rw [Py.bind_eq_error] at h
  rcases h with h | ⟨flows, hflows, h⟩
  · obtain ⟨h1, v, hv, h2⟩ := flowsFromChanges_error h
    exact ⟨h1, Or.inl ⟨v, hv, Dict.get?_eq_none_iff.1 h2⟩⟩
  · rw [Py.bind_eq_error] at h
    obtain ⟨a', h1, h2, h3, h4⟩ := copy_ok ha
    rcases h with h | ⟨a'', h5, h⟩
    · rw [h1] at h; cases h
    · rw [h1] at h5; cases h5
      obtain ⟨h6, x, hx, h7⟩ := updateFlows_fold_error _ h
      refine ⟨h6, Or.inr ?_⟩
      have hs := flowsFromChanges_ok hf hflows
      have : x.1 ∈ flows.keys := List.mem_map.2 ⟨x, hx, rfl⟩
      obtain ⟨v, q, hv, hne, h8⟩ := (hs.mem_keys x.1).1 this
      rw [h3] at h7
      rcases h8 with h8 | h8
      · refine ⟨q, (Dict.mem_values_iff hf).2 ⟨v, hv⟩, ?_⟩
        rw [← h8]; exact h7
      · exact absurd (ha.complete v x.1 h8) h7

end GC

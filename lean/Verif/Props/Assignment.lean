import Verif.Lemmas.Assignment

/-!
# C01 – C03: assignments under flips
-/

set_option linter.unusedSectionVars false

set_option autoImplicit false

namespace GC

variable {V P : Type} [LinearOrder V] [DecidableEq P]

/-- **C01.** Start from any dictionary, apply any sequence of flips: whenever no exception is raised the two views
agree, every node of the dictionary lies in exactly one district, no other node lies in a district, and `len` is
the number of nodes. -/
theorem C01_views_agree (d : Dict V P) (hd : d.WF) (fs : List (Dict V P)) (hfs : ∀ f ∈ fs, f.WF)
    (a b : Assignment V P) (ha : Assignment.fromDict d = .ok a) (hb : fs.foldlM Assignment.flip a = .ok b) :
    (∀ v p, (∃ s, b.parts.get? p = some s ∧ v ∈ s) ↔ b.mapping.get? v = some p) ∧
    (∀ v, v ∈ d.keys ↔ ∃ p s, b.parts.get? p = some s ∧ v ∈ s) ∧
    (∀ v p q s t, b.parts.get? p = some s → b.parts.get? q = some t → v ∈ s → v ∈ t → p = q) ∧
    b.len = d.keys.length := by
  obtain ⟨a', h1, h2, h3, h4⟩ := fromDict_ok hd
  rw [ha] at h1
  cases h1
  clear h4
  have hk : ∀ v, v ∈ a.mapping.keys ↔ v ∈ d.keys := by
    intro v
    rw [← Dict.get?_isSome_iff, ← Dict.get?_isSome_iff, h3]
  clear ha h3
  have key : b.Coherent ∧ ∀ v, v ∈ b.mapping.keys ↔ v ∈ d.keys := by
    revert hb h2 hk
    induction fs generalizing a with
    | nil =>
      intro hb h2 hk
      simp only [List.foldlM_nil, Py.pure_eq_ok] at hb
      subst hb
      exact ⟨h2, hk⟩
    | cons f fs ih =>
      intro hb h2 hk
      rw [List.foldlM_cons, Py.bind_eq_ok] at hb
      obtain ⟨m, hm, hb⟩ := hb
      have hs := flip_ok h2 (hfs f List.mem_cons_self) hm
      refine ih (fun f hf => hfs f (List.mem_cons_of_mem _ hf)) m hb hs.coherent ?_
      intro v
      rw [← hk, ← Dict.get?_isSome_iff, ← Dict.get?_isSome_iff, hs.get?]
      rcases hv : f.get? v with _ | p
      · simp
      · obtain ⟨q, hq⟩ := hs.known v p hv
        simp [hq]
  obtain ⟨hc, hk'⟩ := key
  have hagree : ∀ v p, (∃ s, b.parts.get? p = some s ∧ v ∈ s) ↔ b.mapping.get? v = some p := by
    intro v p
    constructor
    · rintro ⟨s, hs, hv⟩; exact (hc.agree p s hs v).1 hv
    · intro h
      obtain ⟨s, hs⟩ := Dict.mem_keys_iff.1 (hc.complete v p h)
      exact ⟨s, hs, (hc.agree p s hs v).2 h⟩
  have hcov : ∀ v, v ∈ d.keys ↔ ∃ p s, b.parts.get? p = some s ∧ v ∈ s := by
    intro v
    rw [← hk', Dict.mem_keys_iff]
    exact exists_congr fun p => (hagree v p).symm
  refine ⟨hagree, hcov, ?_, ?_⟩
  · intro v p q s t hs ht hv hv'
    exact hc.disj p q s t hs ht v hv hv'
  · unfold Assignment.len
    rw [partsLen_eq_card hc.parts_wf hc.disj, ← List.toFinset_card_of_nodup hd]
    congr 1
    ext v
    rw [mem_partsUnion, List.mem_toFinset]
    change _ ↔ v ∈ d.keys
    rw [hcov]
    constructor
    · rintro ⟨s, hs, hv⟩
      obtain ⟨p, hp⟩ := (Dict.mem_values_iff hc.parts_wf).1 hs
      exact ⟨p, s, hp, hv⟩
    · rintro ⟨p, s, hp, hv⟩
      exact ⟨s, (Dict.mem_values_iff hc.parts_wf).2 ⟨p, hp⟩, hv⟩

/-- **C01 (construction).** `Assignment.from_dict` never fails on a dictionary, reproduces it, and every district of
the dictionary (and no other) is a part. -/
theorem C01_from_dict (d : Dict V P) (hd : d.WF) :
    ∃ a, Assignment.fromDict d = .ok a ∧ (∀ v, a.mapping.get? v = d.get? v) ∧
      (∀ p, p ∈ a.parts.keys ↔ p ∈ d.values) ∧ (∀ p s, a.parts.get? p = some s → s.Nonempty) := by
  obtain ⟨a, h1, h2, h3, h4⟩ := fromDict_ok hd
  refine ⟨a, h1, h3, ?_, ?_⟩
  · intro p; rw [h4, mem_keys_levelSets hd, Dict.mem_values_iff hd]
  · intro p s hs
    have hk : p ∈ (levelSets d).keys := by rw [← h4]; exact Dict.mem_keys_iff.2 ⟨s, hs⟩
    obtain ⟨v, hv⟩ := (mem_keys_levelSets hd).1 hk
    refine ⟨v, ?_⟩
    rw [h2.agree p s hs, h3, hv]

/-- **C01 (validation).** Constructing an assignment from parts succeeds iff no node occurs in two parts, and then
the mapping is the inverse of the parts. -/
theorem C01_init_validates (parts : Dict P (Finset V)) (hw : parts.WF) :
    ((∃ a, Assignment.init parts Dict.empty true = .ok a) ↔
      ∀ p q s t, parts.get? p = some s → parts.get? q = some t → ∀ v, v ∈ s → v ∈ t → p = q) ∧
    (∀ a, Assignment.init parts Dict.empty true = .ok a → a.Coherent ∧ a.parts = parts) ∧
    (∀ e, Assignment.init parts Dict.empty true = .error e → e = .valueError) := by
  have hlen : partsLen parts = (partsUnion parts).card →
      ∀ p q s t, parts.get? p = some s → parts.get? q = some t → ∀ v, v ∈ s → v ∈ t → p = q := by
    have aux : ∀ (l : List (Finset V)) (acc : Finset V),
        (l.foldl (· ∪ ·) acc).card = acc.card + (l.map Finset.card).sum →
        (∀ s ∈ l, Disjoint acc s) ∧ l.Pairwise Disjoint := by
      intro l
      induction l with
      | nil => intro acc _; simp
      | cons x xs ih =>
        intro acc h
        rw [List.foldl_cons] at h
        have h1 := card_foldl_union_le xs (acc ∪ x)
        have h2 := Finset.card_union_add_card_inter acc x
        simp only [List.map_cons, List.sum_cons] at h
        have h3 : (acc ∩ x).card = 0 := by omega
        have h4 := ih (acc ∪ x) (by omega)
        rw [Finset.card_eq_zero] at h3
        constructor
        · intro s hs
          rcases List.mem_cons.1 hs with rfl | hs
          · exact Finset.disjoint_iff_inter_eq_empty.2 h3
          · exact (Finset.disjoint_union_left.1 (h4.1 s hs)).1
        · refine List.pairwise_cons.2 ⟨?_, h4.2⟩
          intro s hs
          exact (Finset.disjoint_union_left.1 (h4.1 s hs)).2
    intro h p q s t hs ht v hv hv'
    by_contra hne
    have h1 := (aux parts.values ∅ (by
      rw [Finset.card_empty, Nat.zero_add]
      exact h.symm)).2
    unfold Dict.values at h1
    rw [List.pairwise_map] at h1
    have h3 : parts.entries.Pairwise (fun a b => a.1 ≠ b.1 → Disjoint a.2 b.2) := by
      refine h1.imp ?_
      intro a b h _; exact h
    have hsym : Std.Symm (fun a b : P × Finset V => a.1 ≠ b.1 → Disjoint a.2 b.2) :=
      ⟨fun a b h hne => (h (Ne.symm hne)).symm⟩
    have h4 := h3.forall_of_forall
      (fun x _ h => absurd rfl h) (Dict.mem_entries_of_get? hs) (Dict.mem_entries_of_get? ht) hne
    exact Finset.disjoint_left.1 h4 hv hv'
  have hok : (∀ p q s t, parts.get? p = some s → parts.get? q = some t → ∀ v, v ∈ s → v ∈ t → p = q) →
      Assignment.init parts Dict.empty true = .ok ⟨parts, mappingOfParts parts⟩ := by
    intro h
    unfold Assignment.init
    rw [partsLen_eq_card hw h]
    simp [Dict.empty]
  have hbad : ¬ (∀ p q s t, parts.get? p = some s → parts.get? q = some t → ∀ v, v ∈ s → v ∈ t → p = q) →
      Assignment.init parts Dict.empty true = .error .valueError := by
    intro h
    have : partsLen parts ≠ (partsUnion parts).card := fun h' => h (hlen h')
    unfold Assignment.init
    simp [this]
  refine ⟨⟨?_, fun h => ⟨_, hok h⟩⟩, ?_, ?_⟩
  · rintro ⟨a, ha⟩
    by_contra hn
    rw [hbad hn] at ha; cases ha
  · intro a ha
    by_cases h : ∀ p q s t, parts.get? p = some s → parts.get? q = some t → ∀ v, v ∈ s → v ∈ t → p = q
    · rw [hok h] at ha
      cases ha
      refine ⟨⟨hw, wf_mappingOfParts _, ?_, ?_⟩, rfl⟩
      · intro p s hs v
        simp only at hs ⊢
        rw [get?_mappingOfParts hw h]
        constructor
        · exact fun hv => ⟨s, hs, hv⟩
        · rintro ⟨t, ht, hv⟩
          rw [hs] at ht; cases ht; exact hv
      · intro v p hv
        simp only at hv ⊢
        rw [get?_mappingOfParts hw h] at hv
        obtain ⟨s, hs, _⟩ := hv
        exact Dict.mem_keys_iff.2 ⟨s, hs⟩
    · rw [hbad h] at ha; cases ha
  · intro e he
    by_cases h : ∀ p q s t, parts.get? p = some s → parts.get? q = some t → ∀ v, v ∈ s → v ∈ t → p = q
    · rw [hok h] at he; cases he
    · rw [hbad h] at he; cases he; rfl

/-- **C02.** A flip that returns assigns flipped nodes as asked, leaves every other node alone, and keeps exactly
the same district labels. -/
theorem C02_flip_exact (a b : Assignment V P) (ha : a.Coherent) (flips : Dict V P) (hf : flips.WF)
    (h : a.flip flips = .ok b) :
    (∀ v p, flips.get? v = some p → b.mapping.get? v = some p) ∧
    (∀ v, flips.get? v = none → b.mapping.get? v = a.mapping.get? v) ∧
    b.parts.keys = a.parts.keys ∧ b.Coherent := by
  have hs := flip_ok ha hf h
  refine ⟨?_, ?_, hs.keys, hs.coherent⟩
  · intro v p hv; rw [hs.get?, hv]; rfl
  · intro v hv; rw [hs.get?, hv]; rfl

/-- **C02 (history).** After a sequence of flips a node's district is given by the last flip that mentions it. -/
theorem C02_flip_history (a b : Assignment V P) (ha : a.Coherent) (fs : List (Dict V P)) (hfs : ∀ f ∈ fs, f.WF)
    (h : fs.foldlM Assignment.flip a = .ok b) (v : V) :
    b.mapping.get? v = (fs.reverse.findSome? (fun f => f.get? v)).or (a.mapping.get? v) := by
  induction fs generalizing a with
  | nil =>
    simp only [List.foldlM_nil, Py.pure_eq_ok] at h
    subst h; simp
  | cons f fs ih =>
    rw [List.foldlM_cons, Py.bind_eq_ok] at h
    obtain ⟨m, hm, hb⟩ := h
    have hs := flip_ok ha (hfs f List.mem_cons_self) hm
    rw [ih m hs.coherent (fun f hf => hfs f (List.mem_cons_of_mem _ hf)) hb, hs.get?]
    rw [List.reverse_cons, List.findSome?_append, Option.or_assoc]
    congr 1
    rcases hfv : f.get? v with _ | p <;> simp [hfv]

/-- **C03.** `flip` raises exactly when an unknown node is flipped or an unknown district is named; the exception is
`KeyError`. -/
theorem C03_flip_raises_iff (a : Assignment V P) (ha : a.Coherent) (flips : Dict V P) (hf : flips.WF) (e : PyErr) :
    a.flip flips = .error e ↔
      e = .keyError ∧ ((∃ v ∈ flips.keys, v ∉ a.mapping.keys) ∨ ∃ p ∈ flips.values, p ∉ a.parts.keys) := by
  constructor
  · exact flip_error ha hf
  · rintro ⟨rfl, h⟩
    rcases hr : a.flip flips with e | b
    · rw [(flip_error ha hf hr).1]
    · exfalso
      have hs := flip_ok ha hf hr
      rcases h with ⟨v, hv, hv'⟩ | ⟨p, hp, hp'⟩
      · obtain ⟨p, hp⟩ := Dict.mem_keys_iff.1 hv
        obtain ⟨q, hq⟩ := hs.known v p hp
        exact hv' (Dict.mem_keys_iff.2 ⟨q, hq⟩)
      · obtain ⟨v, hv⟩ := (Dict.mem_values_iff hf).1 hp
        apply hp'
        rw [← hs.keys]
        apply hs.coherent.complete v p
        rw [hs.get?, hv]; rfl

/-! ### Non-vacuity -/

/-- A small assignment used in the examples: nodes 0..3, districts 1 and 2. -/
def exDict : Dict ℕ ℕ := ⟨[(0, 1), (1, 1), (2, 2), (3, 2)]⟩

/-- Flip sequence used in the examples: a two-node swap, then a no-op, then a move. -/
def exFlips : List (Dict ℕ ℕ) := [⟨[(1, 2), (2, 1)]⟩, ⟨[(0, 1)]⟩, ⟨[(3, 1)]⟩]

example : exDict.WF ∧ (∀ f ∈ exFlips, f.WF) ∧
    ∃ a b, Assignment.fromDict exDict = .ok a ∧ exFlips.foldlM Assignment.flip a = .ok b ∧
      b.parts = ⟨[(1, {0, 2, 3}), (2, {1})]⟩ := by
  refine ⟨by simp [exDict, Dict.WF, Dict.keys], by simp [exFlips, Dict.WF, Dict.keys], ?_⟩
  exact ⟨_, ⟨⟨[(1, {0, 2, 3}), (2, {1})]⟩, ⟨[(0, 1), (1, 2), (2, 1), (3, 1)]⟩⟩, rfl, by decide, rfl⟩

example : ∃ a : Assignment ℕ ℕ, Assignment.fromDict exDict = .ok a ∧
    a.flip ⟨[(0, 7)]⟩ = .error .keyError ∧ a.flip ⟨[(9, 1)]⟩ = .error .keyError :=
  ⟨_, rfl, by decide, by decide⟩

example : Assignment.init (⟨[(1, {0, 1}), (2, {1})]⟩ : Dict ℕ (Finset ℕ)) Dict.empty true = .error .valueError := by
  decide

end GC

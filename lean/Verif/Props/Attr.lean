import Verif.Model.Attr

/-!
# Reading and copying a partition (C117)
-/

set_option linter.unusedSectionVars false
set_option autoImplicit false

namespace GC

variable {A : Type}

/-- The partition is as `__init__` and any number of readings leave it: `_cache` and `updaters` are set, and what is in the cache is the value of the updater. -/
def PartObj.Made (o : PartObj A) (u : Dict PyKey (Py A)) : Prop := o.updaters = some u ∧ ∃ c, o.cache = some c ∧ ∀ k v, c.get? k = some v → u.get? k = some (.ok v)

theorem made_fresh (slots : Dict String A) (u : Dict PyKey (Py A)) : (PartObj.fresh slots u).Made u :=
  ⟨rfl, .empty, rfl, fun _ _ h => by cases h⟩

/-- reading a made partition: the value of the updater, or its exception, or `KeyError`; it stays made, with the same slots -/
theorem partItem_made {o : PartObj A} {u : Dict PyKey (Py A)} (ho : o.Made u) (limit : ℕ) (k : PyKey) :
    ∃ o', o'.Made u ∧ o'.slots = o.slots ∧ partItem (limit + 1) k o = ((u.get? k).getD (.error .keyError), o') := by
  obtain ⟨h1, c, h2, h3⟩ := ho
  unfold partItem
  rw [h2]
  dsimp only
  rcases hc : c.get? k with _ | v
  · dsimp only
    rw [h1]
    dsimp only
    rcases hu : u.get? k with _ | e | v
    · exact ⟨o, ⟨h1, c, h2, h3⟩, rfl, rfl⟩
    · exact ⟨o, ⟨h1, c, h2, h3⟩, rfl, rfl⟩
    · refine ⟨{ o with cache := some (c.set k v) }, ⟨h1, c.set k v, rfl, fun k' v' h => ?_⟩, rfl, by rw [h1]; rfl⟩
      by_cases hk : k' = k
      · subst hk
        rw [Dict.get?_set_self] at h
        cases h
        exact hu
      · rw [Dict.get?_set_ne _ _ hk] at h
        exact h3 k' v' h
  · refine ⟨o, ⟨h1, c, h2, h3⟩, rfl, ?_⟩
    rw [h3 k v hc]
    rfl

/-- without the slot `_cache`, every key leads to `RecursionError` -/
theorem partItem_blank {o : PartObj A} (ho : o.cache = none) (limit : ℕ) (k : PyKey) : partItem limit k o = (.error .recursionError, o) := by
  induction limit generalizing k with
  | zero => rfl
  | succ n ih =>
    unfold partItem
    rw [ho]
    dsimp only
    rw [ih]

/-- one reading of a partition: with brackets, as an attribute, or with `hasattr` -/
inductive Reading where
  | item (k : PyKey)
  | attr (name : String)
  | has (name : String)

variable (partsOf : A → A) (classAttr : String → A) (limit : ℕ)

/-- the partition after a reading, whatever came of it -/
def Reading.after (r : Reading) (o : PartObj A) : PartObj A := match r with
  | .item k => (partItem (limit + 1) k o).2
  | .attr name => (partAttr partsOf classAttr (limit + 1) name o).2
  | .has name => (partHasAttr partsOf classAttr (limit + 1) name o).2

theorem partSlot_made {o : PartObj A} {u : Dict PyKey (Py A)} (ho : o.Made u) (name : String) :
    ∃ o', o'.Made u ∧ o'.slots = o.slots ∧ partSlot (limit + 1) name o = (((o.slots.get? name).map .ok).getD ((u.get? (.str name)).getD (.error .keyError)), o') := by
  unfold partSlot
  rcases h : o.slots.get? name with _ | v
  · exact partItem_made ho limit (.str name)
  · exact ⟨o, ho, rfl, rfl⟩

theorem partAttr_made {o : PartObj A} {u : Dict PyKey (Py A)} (ho : o.Made u) (name : String) :
    (partAttr partsOf classAttr (limit + 1) name o).2.Made u ∧ (partAttr partsOf classAttr (limit + 1) name o).2.slots = o.slots := by
  unfold partAttr
  split_ifs
  · obtain ⟨o', h1, h2, h3⟩ := partSlot_made limit ho name
    rw [h3]
    exact ⟨h1, h2⟩
  · obtain ⟨o', h1, h2, h3⟩ := partSlot_made limit ho "assignment"
    unfold partParts
    rw [h3]
    generalize ((o.slots.get? "assignment").map Except.ok).getD ((u.get? (.str "assignment")).getD (.error .keyError)) = r
    split
    · rename_i heq
      cases heq
      exact ⟨h1, h2⟩
    · rename_i heq
      cases heq
      obtain ⟨o'', k1, k2, k3⟩ := partItem_made h1 limit (.str "parts")
      rw [k3]
      exact ⟨k1, k2.trans h2⟩
    · rename_i heq
      cases heq
      exact ⟨h1, h2⟩
  · exact ⟨ho, rfl⟩
  · obtain ⟨o', h1, h2, h3⟩ := partItem_made ho limit (.str name)
    rw [h3]
    exact ⟨h1, h2⟩

theorem after_made {o : PartObj A} {u : Dict PyKey (Py A)} (ho : o.Made u) (r : Reading) :
    (r.after partsOf classAttr limit o).Made u ∧ (r.after partsOf classAttr limit o).slots = o.slots := by
  rcases r with k | name | name
  · obtain ⟨o', h1, h2, h3⟩ := partItem_made ho limit k
    show (partItem (limit + 1) k o).2.Made u ∧ _
    rw [h3]
    show o'.Made u ∧ (partItem (limit + 1) k o).2.slots = o.slots
    rw [h3]
    exact ⟨h1, h2⟩
  · exact partAttr_made partsOf classAttr limit ho name
  · have e : (partHasAttr partsOf classAttr (limit + 1) name o).2 = (partAttr partsOf classAttr (limit + 1) name o).2 := by
      unfold partHasAttr
      split <;> (rename_i heq; rw [heq])
    show (partHasAttr partsOf classAttr (limit + 1) name o).2.Made u ∧ (partHasAttr partsOf classAttr (limit + 1) name o).2.slots = o.slots
    rw [e]
    exact partAttr_made partsOf classAttr limit ho name

theorem readings_made {o : PartObj A} {u : Dict PyKey (Py A)} (ho : o.Made u) (rs : List Reading) :
    (rs.foldl (fun o r => r.after partsOf classAttr limit o) o).Made u ∧ (rs.foldl (fun o r => r.after partsOf classAttr limit o) o).slots = o.slots := by
  induction rs generalizing o with
  | nil => exact ⟨ho, rfl⟩
  | cons r rs ih =>
    obtain ⟨h1, h2⟩ := after_made partsOf classAttr limit ho r
    obtain ⟨h3, h4⟩ := ih h1
    exact ⟨h3, h4.trans h2⟩

variable (slots : Dict String A) (u : Dict PyKey (Py A)) (rs : List Reading)

/-- the partition after it is made and then read any number of times, in any way -/
def PartObj.read : PartObj A := rs.foldl (fun o r => r.after partsOf classAttr limit o) (PartObj.fresh slots u)

/-- **C117** (brackets) However often and in whatever way a partition has been read before, `partition[key]` is the value of the updater of that name, or the exception it raises, and
`KeyError` if there is none. -/
theorem C117_item (k : PyKey) :
    (partItem (limit + 1) k (PartObj.read partsOf classAttr limit slots u rs)).1 = match u.get? k with | some r => r | none => .error .keyError := by
  obtain ⟨h1, -⟩ := readings_made partsOf classAttr limit (made_fresh slots u) rs
  obtain ⟨o', -, -, h⟩ := partItem_made h1 limit k
  show (partItem (limit + 1) k (rs.foldl _ _)).1 = _
  rw [h]
  rcases u.get? k with _ | r <;> rfl

/-- **C117** (attributes) For every name that is neither a slot nor defined in the class, `partition.name` is `partition["name"]`: the value of the updater. -/
theorem C117_attr_partial (name : String) (h1 : name ∉ slotNames) (h2 : name ∉ classNames) :
    (partAttr partsOf classAttr (limit + 1) name (PartObj.read partsOf classAttr limit slots u rs)).1 = match u.get? (.str name) with | some r => r | none => .error .keyError := by
  have h3 : name ≠ "parts" := by
    rintro rfl
    exact h2 (by decide)
  unfold partAttr
  rw [if_neg h1, if_neg h3, if_neg h2]
  exact C117_item partsOf classAttr limit slots u rs (.str name)

/-- **C117** (attributes, violation) For the name of a slot that is set, and for a name defined in the class, `partition.name` is not the value of an updater of that name:
it does not depend on the updaters. -/
theorem C117_attr_violation (name : String) (h : (name ∈ slotNames ∧ slots.get? name ≠ none) ∨ (name ∈ classNames ∧ slots.get? "assignment" ≠ none)) (u' : Dict PyKey (Py A)) :
    ∃ a, (partAttr partsOf classAttr (limit + 1) name (PartObj.fresh slots u)).1 = .ok a ∧ (partAttr partsOf classAttr (limit + 1) name (PartObj.fresh slots u')).1 = .ok a := by
  have hslot : ∀ n, slots.get? n ≠ none → ∃ a, ∀ w : Dict PyKey (Py A), partSlot (limit + 1) n (PartObj.fresh slots w) = (.ok a, PartObj.fresh slots w) := by
    intro n hn
    obtain ⟨a, ha⟩ := Option.ne_none_iff_exists'.1 hn
    refine ⟨a, fun w => ?_⟩
    unfold partSlot
    rw [show (PartObj.fresh slots w).slots = slots from rfl, ha]
  unfold partAttr
  by_cases hs : name ∈ slotNames
  · simp only [if_pos hs]
    have hset : slots.get? name ≠ none := by
      rcases h with ⟨-, h⟩ | ⟨hc, -⟩
      · exact h
      · exfalso
        revert hs hc
        unfold slotNames classNames
        simp only [List.mem_cons, List.not_mem_nil, or_false]
        rintro (rfl | rfl | rfl | rfl | rfl | rfl | rfl) <;> decide
    obtain ⟨a, ha⟩ := hslot name hset
    exact ⟨a, by rw [ha], by rw [ha]⟩
  · simp only [if_neg hs]
    rcases h with ⟨h, -⟩ | ⟨hc, ha⟩
    · exact absurd h hs
    · obtain ⟨a, ha⟩ := hslot _ ha
      by_cases hp : name = "parts"
      · simp only [if_pos hp]
        unfold partParts
        exact ⟨partsOf a, by rw [ha], by rw [ha]⟩
      · simp only [if_neg hp, if_pos hc]
        exact ⟨classAttr name, rfl, rfl⟩

/-- **C117** (`hasattr`) For the name of an updater that returns a value, `hasattr` is true. -/
theorem C117_hasattr_partial (name : String) (h1 : name ∉ slotNames) (h2 : name ∉ classNames) (v : A) (hv : u.get? (.str name) = some (.ok v)) :
    (partHasAttr partsOf classAttr (limit + 1) name (PartObj.read partsOf classAttr limit slots u rs)).1 = .ok true := by
  have h := C117_attr_partial partsOf classAttr limit slots u rs name h1 h2
  rw [hv] at h
  unfold partHasAttr
  rcases ha : partAttr partsOf classAttr (limit + 1) name (PartObj.read partsOf classAttr limit slots u rs) with ⟨r, o'⟩
  rw [ha] at h
  dsimp only at h
  subst h
  rfl

/-- **C117** (`hasattr`, violation) For a name that a partition does not have, `hasattr` is not false: it raises `KeyError`.  So does `getattr` with a default. -/
theorem C117_hasattr_violation (name : String) (h1 : name ∉ slotNames) (h2 : name ∉ classNames) (hv : u.get? (.str name) = none) :
    (partHasAttr partsOf classAttr (limit + 1) name (PartObj.read partsOf classAttr limit slots u rs)).1 = .error .keyError := by
  have h := C117_attr_partial partsOf classAttr limit slots u rs name h1 h2
  rw [hv] at h
  unfold partHasAttr
  rcases ha : partAttr partsOf classAttr (limit + 1) name (PartObj.read partsOf classAttr limit slots u rs) with ⟨r, o'⟩
  rw [ha] at h
  dsimp only at h
  subst h
  rfl

theorem partDictLoop_spec {o : PartObj A} (ho : o.Made u) (f : PyKey → A) : ∀ (ks : List PyKey) (acc : Dict PyKey A), (∀ k ∈ ks, u.get? k = some (.ok (f k))) →
    ∃ d, (partDictLoop (limit + 1) ks acc o).1 = .ok d ∧ ∀ k, d.get? k = if k ∈ ks then some (f k) else acc.get? k
  | [], acc, _ => ⟨acc, rfl, fun k => by simp⟩
  | k :: ks, acc, h => by
    obtain ⟨o', h1, -, h2⟩ := partItem_made ho limit k
    rw [h k (by simp)] at h2
    obtain ⟨d, h3, h4⟩ := partDictLoop_spec (o := o') h1 f ks (acc.set k (f k)) (fun k' hk' => h k' (by simp [hk']))
    refine ⟨d, ?_, fun k' => ?_⟩
    · show (M.bind (partItem (limit + 1) k) _ o).1 = _
      unfold M.bind
      rw [h2]
      exact h3
    · rw [h4]
      by_cases hk' : k' ∈ ks
      · rw [if_pos hk', if_pos (by simp [hk'])]
      · rw [if_neg hk', Dict.get?_set]
        by_cases he : k' = k
        · subst he
          simp
        · rw [if_neg he, if_neg (by simp [he, hk'])]

/-- **C117** (`dict`) If all updaters return values, `dict(partition)` has exactly these, by the names of the updaters, however the partition has been read before. -/
theorem C117_dict (f : PyKey → A) (hf : ∀ k ∈ u.keys, u.get? k = some (.ok (f k))) :
    ∃ d, (partDict (limit + 1) (PartObj.read partsOf classAttr limit slots u rs)).1 = .ok d ∧ ∀ k, d.get? k = if k ∈ u.keys then some (f k) else none := by
  obtain ⟨h1, -⟩ := readings_made partsOf classAttr limit (made_fresh slots u) rs
  obtain ⟨d, h2, h3⟩ := partDictLoop_spec limit u h1 f u.keys .empty hf
  refine ⟨d, ?_, h3⟩
  show (partDict (limit + 1) (rs.foldl _ _)).1 = _
  unfold partDict
  rw [h1.1]
  exact h2

/-- **C117** (`in`, violation) With string keys only, `for x in partition` and `x in partition` always raise `KeyError`, also for the names of updaters. -/
theorem C117_in_violation (hu : ∀ n, u.get? (.num n) = none) (fuel : ℕ) :
    (partSequence (limit + 1) (fuel + 1) 0 [] (PartObj.read partsOf classAttr limit slots u rs)).1 = .error .keyError := by
  have h := C117_item partsOf classAttr limit slots u rs (.num 0)
  rw [hu] at h
  unfold partSequence
  rcases ha : partItem (limit + 1) (.num 0) (PartObj.read partsOf classAttr limit slots u rs) with ⟨r, o'⟩
  rw [ha] at h
  dsimp only at h
  subst h
  rfl

theorem partRebuild_never (state : PartObj A) : partRebuild limit state = .error .recursionError := by
  unfold partRebuild
  rw [partItem_blank (o := PartObj.blank) rfl]

/-- **C117** (`copy`, violation) A partition without an updater called `__getstate__` or `__deepcopy__` cannot be copied: whatever the recursion limit, `copy.copy` raises `RecursionError`
(before python 3.11: `KeyError`), `copy.deepcopy` raises `KeyError`, and `pickle.loads` raises `RecursionError`. -/
theorem C117_copy_violation (before311 : Bool) (h1 : u.get? (.str "__getstate__") = none) (h2 : u.get? (.str "__deepcopy__") = none) :
    partCopy before311 (limit + 1) (PartObj.read partsOf classAttr limit slots u rs) = .error (if before311 then .keyError else .recursionError) ∧
    partDeepCopy before311 (limit + 1) (PartObj.read partsOf classAttr limit slots u rs) = .error .keyError ∧
    partRebuild (limit + 1) (PartObj.read partsOf classAttr limit slots u rs) = .error .recursionError := by
  have e1 := C117_item partsOf classAttr limit slots u rs (.str "__getstate__")
  have e2 := C117_item partsOf classAttr limit slots u rs (.str "__deepcopy__")
  rw [h1] at e1
  rw [h2] at e2
  refine ⟨?_, ?_, partRebuild_never _ _⟩
  · cases before311 with
    | false => exact partRebuild_never _ _
    | true =>
      unfold partCopy
      rw [if_pos rfl]
      rcases ha : partItem (limit + 1) (.str "__getstate__") (PartObj.read partsOf classAttr limit slots u rs) with ⟨r, o'⟩
      rw [ha] at e1
      dsimp only at e1
      subst e1
      rfl
  · unfold partDeepCopy
    rcases ha : partItem (limit + 1) (.str "__deepcopy__") (PartObj.read partsOf classAttr limit slots u rs) with ⟨r, o'⟩
    rw [ha] at e2
    dsimp only at e2
    subst e2
    rfl

/-- **C117** (`FrozenGraph`) An attribute of a frozen graph is its own, or else that of the graph; without either `AttributeError`, as `hasattr` wants it. -/
theorem C117_frozen (own g : Dict String A) (name : String) :
    frozenAttr (limit + 1) ⟨own, some g⟩ name = match own.get? name, g.get? name with
      | some v, _ => .ok v
      | none, some v => .ok v
      | none, none => .error .attributeError := by
  unfold frozenAttr
  dsimp only
  rcases own.get? name with _ | v
  · rcases g.get? name with _ | v <;> rfl
  · rfl

/-- **C117** (`FrozenGraph`, violation) Before the slot `graph` is set, every attribute it does not have itself leads to `RecursionError`, so frozen graphs cannot be copied or unpickled
either: python asks the new object for `__setstate__`. -/
theorem C117_frozen_violation (own : Dict String A) (name : String) (h1 : own.get? name = none) (h2 : own.get? "graph" = none) :
    frozenAttr limit ⟨own, none⟩ name = .error .recursionError := by
  induction limit generalizing name with
  | zero => rfl
  | succ n ih =>
    unfold frozenAttr
    dsimp only
    rw [h1]
    exact ih "graph" h2

/-! ### Examples: a partition with the updaters `cut_edges`, `parts` and one that raises -/

/-- the slots of a new partition; values are numbers -/
def exSlots : Dict String ℕ := ⟨[("graph", 1), ("subgraphs", 2), ("assignment", 3), ("parent", 4), ("flips", 4), ("flows", 4), ("edge_flows", 4)]⟩

/-- its updaters -/
def exUpdaters : Dict PyKey (Py ℕ) := ⟨[(.str "cut_edges", .ok 7), (.str "parts", .ok 8), (.str "broken", .error .zeroDivision)]⟩

/-- `partition.cut_edges` is the value of the updater, also after other readings; `partition.parts` is not the one of the updater, `partition["parts"]` is; a name that is missing raises
`KeyError` in `hasattr` -/
example : (partAttr (· + 100) (fun _ => 0) (9 + 1) "cut_edges" (PartObj.read (· + 100) (fun _ => 0) 9 exSlots exUpdaters [.attr "parts", .item (.str "cut_edges"), .has "x"])).1.toOption = some 7 ∧
    (partAttr (· + 100) (fun _ => 0) (9 + 1) "parts" (PartObj.fresh exSlots exUpdaters)).1.toOption = some 103 ∧
    (partItem (9 + 1) (.str "parts") (PartObj.fresh exSlots exUpdaters)).1.toOption = some 8 ∧
    (partHasAttr (· + 100) (fun _ => 0) (9 + 1) "area" (PartObj.fresh exSlots exUpdaters)).1 = .error .keyError := by
  refine ⟨?_, ?_, ?_, ?_⟩ <;> decide +kernel

/-- the hypotheses of the other theorems hold for it -/
example : "cut_edges" ∉ slotNames ∧ "cut_edges" ∉ classNames ∧ "parts" ∈ classNames ∧ exSlots.get? "assignment" ≠ none ∧ exUpdaters.get? (.str "__getstate__") = none ∧
    exUpdaters.get? (.str "__deepcopy__") = none ∧ "area" ∉ slotNames ∧ "area" ∉ classNames ∧ exUpdaters.get? (.str "area") = none := by
  decide +kernel

/-- `dict` of a partition whose updaters all return values -/
example : ∃ d, (partDict (9 + 1) (PartObj.read (· + 100) (fun _ => 0) 9 exSlots (⟨[(.str "cut_edges", .ok 7), (.str "parts", .ok 8)]⟩ : Dict PyKey (Py ℕ)) [.has "cut_edges"])).1 = .ok d ∧
    d.get? (.str "cut_edges") = some 7 := by
  obtain ⟨d, h1, h2⟩ := C117_dict (· + 100) (fun _ => 0) 9 exSlots ⟨[(.str "cut_edges", .ok 7), (.str "parts", .ok 8)]⟩ [.has "cut_edges"] (fun k => if k = .str "cut_edges" then 7 else 8)
    (by decide +kernel)
  exact ⟨d, h1, by rw [h2]; decide +kernel⟩

end GC

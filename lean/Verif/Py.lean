import Mathlib.Data.List.Nodup
import Mathlib.Tactic.Cases
import Mathlib.Tactic.SplitIfs

/-!
# Python basics used by the model

Exceptions are values, dictionaries are insertion-ordered association lists.
-/

set_option autoImplicit false

namespace GC

/-- The python exceptions that occur in the modelled code.  `outOfFuel` is not a python exception: it is the value
returned by a fuelled `while` loop of the model that has not finished yet. -/
inductive PyErr
  | keyError | indexError | valueError | typeError | attributeError | zeroDivision
  | runtimeError | stopIteration | recursionError | overflowError
  | populationBalanceError | metagraphError | reselectException | reversibilityError
  | balanceError | pointlessConcept | geometryError | networkXError | outOfFuel
  deriving DecidableEq, Repr

/-- A python computation that returns a value or raises. -/
abbrev Py (α : Type _) := Except PyErr α

/-- A python `dict`: insertion-ordered association list.  The python runtime guarantees that keys are unique; the
operations below preserve that (`Dict.WF`). -/
structure Dict (K V : Type _) where
  entries : List (K × V)
  deriving DecidableEq, Repr

set_option linter.unusedSectionVars false

namespace Dict

variable {K V W : Type _} [DecidableEq K]

/-- `{}` -/
def empty : Dict K V := ⟨[]⟩

/-- `d.keys()` in iteration order -/
def keys (d : Dict K V) : List K := d.entries.map (·.1)

/-- `d.values()` in iteration order -/
def values (d : Dict K V) : List V := d.entries.map (·.2)

/-- `d.get(k)` -/
def get? (d : Dict K V) (k : K) : Option V := (d.entries.find? (fun e => e.1 = k)).map (·.2)

/-- `d[k]`, raising `KeyError` -/
def get (d : Dict K V) (k : K) : Py V :=
  match d.get? k with
  | some v => .ok v
  | none => .error .keyError

/-- `k in d` -/
def contains (d : Dict K V) (k : K) : Bool := (d.get? k).isSome

/-- `d[k] = v` -/
def set (d : Dict K V) (k : K) (v : V) : Dict K V :=
  if d.entries.any (fun e => e.1 = k) then
    ⟨d.entries.map (fun e => if e.1 = k then (e.1, v) else e)⟩
  else ⟨d.entries ++ [(k, v)]⟩

/-- `d[k] = f(d[k])` for a `defaultdict` with default value `dflt` -/
def modifyD (d : Dict K V) (k : K) (dflt : V) (f : V → V) : Dict K V :=
  d.set k (f ((d.get? k).getD dflt))

/-- Reading `d[k]` from a `defaultdict`: the default is stored in the dictionary when the key is missing. -/
def touch (d : Dict K V) (k : K) (dflt : V) : Dict K V := d.modifyD k dflt id

/-- `d.update(e)` -/
def update (d e : Dict K V) : Dict K V := e.entries.foldl (fun acc kv => acc.set kv.1 kv.2) d

/-- Keys are unique (the python runtime guarantees this). -/
def WF (d : Dict K V) : Prop := d.keys.Nodup

/-! ### Lemmas -/

@[simp] theorem get?_empty (k : K) : (empty : Dict K V).get? k = none := rfl
@[simp] theorem keys_empty : (empty : Dict K V).keys = [] := rfl
@[simp] theorem entries_empty : (empty : Dict K V).entries = [] := rfl
theorem wf_empty : (empty : Dict K V).WF := by simp [WF]

theorem get?_eq_none_iff {d : Dict K V} {k : K} : d.get? k = none ↔ k ∉ d.keys := by
  simp only [get?, keys, Option.map_eq_none_iff, List.find?_eq_none, List.mem_map, not_exists, not_and,
    decide_eq_true_eq]

theorem get?_isSome_iff {d : Dict K V} {k : K} : (d.get? k).isSome ↔ k ∈ d.keys := by
  rw [Option.isSome_iff_ne_none, Ne, get?_eq_none_iff, not_not]

theorem mem_keys_iff {d : Dict K V} {k : K} : k ∈ d.keys ↔ ∃ v, d.get? k = some v := by
  rw [← get?_isSome_iff, Option.isSome_iff_exists]

theorem get_eq_ok_iff {d : Dict K V} {k : K} {v : V} : d.get k = .ok v ↔ d.get? k = some v := by
  unfold get; split <;> simp_all

theorem get_eq_error_iff {d : Dict K V} {k : K} {e : PyErr} :
    d.get k = .error e ↔ d.get? k = none ∧ e = .keyError := by
  unfold get
  rcases d.get? k with _ | v
  · simp [eq_comm]
  · simp

theorem mem_entries_of_get? {d : Dict K V} {k : K} {v : V} (h : d.get? k = some v) :
    (k, v) ∈ d.entries := by
  simp only [get?, Option.map_eq_some_iff] at h
  obtain ⟨⟨k', v'⟩, h1, rfl⟩ := h
  have := List.find?_some h1
  simp at this
  subst this
  exact List.mem_of_find?_eq_some h1

theorem get?_of_mem_entries {d : Dict K V} (hd : d.WF) {k : K} {v : V} (h : (k, v) ∈ d.entries) :
    d.get? k = some v := by
  obtain ⟨l⟩ := d
  simp only [WF, keys, get?] at *
  induction l with
  | nil => simp at h
  | cons x xs ih =>
    simp only [List.map_cons, List.nodup_cons] at hd
    simp only [List.find?_cons]
    rcases List.mem_cons.1 h with h | h
    · subst h; simp
    · have : x.1 ≠ k := by
        rintro rfl; exact hd.1 (List.mem_map.2 ⟨_, h, rfl⟩)
      simp only [this, decide_false]
      exact ih hd.2 h

theorem mem_entries_iff {d : Dict K V} (hd : d.WF) {k : K} {v : V} :
    (k, v) ∈ d.entries ↔ d.get? k = some v :=
  ⟨get?_of_mem_entries hd, mem_entries_of_get?⟩

private theorem any_iff {d : Dict K V} {k : K} :
    (d.entries.any (fun e => e.1 = k)) = true ↔ k ∈ d.keys := by
  simp [keys]

theorem keys_set (d : Dict K V) (k : K) (v : V) :
    (d.set k v).keys = if k ∈ d.keys then d.keys else d.keys ++ [k] := by
  unfold set
  by_cases h : k ∈ d.keys
  · rw [if_pos (any_iff.2 h), if_pos h]
    simp only [keys, List.map_map]
    apply List.map_congr_left
    intro e _
    simp only [Function.comp]
    split <;> rfl
  · rw [if_neg (fun h' => h (any_iff.1 h')), if_neg h]
    simp [keys]

theorem mem_keys_set {d : Dict K V} {k k' : K} {v : V} :
    k' ∈ (d.set k v).keys ↔ k' = k ∨ k' ∈ d.keys := by
  rw [keys_set]
  split
  · constructor
    · exact Or.inr
    · rintro (rfl | h) <;> assumption
  · simp [or_comm]

theorem WF.set {d : Dict K V} (hd : d.WF) (k : K) (v : V) : (d.set k v).WF := by
  unfold WF
  rw [keys_set]
  split
  · exact hd
  · rename_i h
    exact List.nodup_append.2 ⟨hd, by simp, by intro a ha b hb; simp at hb; subst hb; rintro rfl; exact h ha⟩

theorem get?_set (d : Dict K V) (k k' : K) (v : V) :
    (d.set k v).get? k' = if k' = k then some v else d.get? k' := by
  unfold set
  by_cases h : k ∈ d.keys
  · rw [if_pos (any_iff.2 h)]
    simp only [get?]
    obtain ⟨l⟩ := d
    simp only [keys] at h
    induction l with
    | nil => simp at h
    | cons x xs ih =>
      simp only [List.map_cons, List.find?_cons]
      by_cases hx : x.1 = k
      · simp only [hx, if_true]
        by_cases hk : k' = k
        · subst hk; simp
        · have hk2 : ¬ k = k' := fun h => hk h.symm
          simp only [hk, if_false, hk2, decide_false]
          by_cases h' : k ∈ xs.map (·.1)
          · rw [ih h', if_neg hk]
          · congr 1
            have : List.map (fun e : K × V => if e.1 = k then (e.1, v) else e) xs = xs := by
              conv_rhs => rw [← List.map_id xs]
              apply List.map_congr_left
              intro e he
              have : e.1 ≠ k := by rintro rfl; exact h' (List.mem_map.2 ⟨_, he, rfl⟩)
              simp [this]
            rw [this]
      · have h' : k ∈ xs.map (·.1) := by
          rcases List.mem_cons.1 h with h | h
          · exact absurd h.symm hx
          · exact h
        simp only [hx, if_false]
        by_cases hk : x.1 = k'
        · have : ¬ k' = k := by rintro rfl; exact hx hk
          simp [hk, this]
        · simp only [hk, decide_false]
          exact ih h'
  · rw [if_neg (fun h' => h (any_iff.1 h'))]
    simp only [get?, List.find?_append]
    by_cases hk : k' = k
    · subst hk
      have : d.entries.find? (fun e => e.1 = k') = none := by
        have := get?_eq_none_iff.2 h
        simpa only [get?, Option.map_eq_none_iff] using this
      simp [this]
    · have : ¬ k = k' := fun h => hk h.symm
      simp [this, hk]

@[simp] theorem get?_set_self (d : Dict K V) (k : K) (v : V) : (d.set k v).get? k = some v := by
  rw [get?_set, if_pos rfl]

theorem get?_set_ne (d : Dict K V) {k k' : K} (v : V) (h : k' ≠ k) :
    (d.set k v).get? k' = d.get? k' := by
  rw [get?_set, if_neg h]

theorem get?_modifyD (d : Dict K V) (k k' : K) (dflt : V) (f : V → V) :
    (d.modifyD k dflt f).get? k' = if k' = k then some (f ((d.get? k).getD dflt)) else d.get? k' := by
  unfold modifyD; rw [get?_set]

theorem WF.modifyD {d : Dict K V} (hd : d.WF) (k : K) (dflt : V) (f : V → V) : (d.modifyD k dflt f).WF :=
  hd.set _ _

theorem get?_touch (d : Dict K V) (k k' : K) (dflt : V) :
    (d.touch k dflt).get? k' = if k' = k then some ((d.get? k).getD dflt) else d.get? k' := by
  unfold touch; rw [get?_modifyD]; rfl

theorem getD_touch (d : Dict K V) (k k' : K) (dflt : V) :
    ((d.touch k dflt).get? k').getD dflt = (d.get? k').getD dflt := by
  rw [get?_touch]; split
  · rename_i h; subst h; rfl
  · rfl

theorem WF.touch {d : Dict K V} (hd : d.WF) (k : K) (dflt : V) : (d.touch k dflt).WF :=
  hd.modifyD _ _ _

theorem mem_values_iff {d : Dict K V} (hd : d.WF) {v : V} : v ∈ d.values ↔ ∃ k, d.get? k = some v := by
  constructor
  · intro h
    obtain ⟨⟨k, v'⟩, h1, rfl⟩ := List.mem_map.1 h
    exact ⟨k, get?_of_mem_entries hd h1⟩
  · rintro ⟨k, h⟩
    exact List.mem_map.2 ⟨(k, v), mem_entries_of_get? h, rfl⟩

theorem contains_iff {d : Dict K V} {k : K} : d.contains k = true ↔ k ∈ d.keys := get?_isSome_iff

theorem WF.update {d : Dict K V} (hd : d.WF) (e : Dict K V) : (d.update e).WF := by
  unfold Dict.update
  generalize e.entries = l
  induction l generalizing d with
  | nil => exact hd
  | cons x xs ih => exact ih (hd.set _ _)

end Dict

/-! ### A state-and-exception monad: python code with side effects on `S`.  The state survives an exception. -/

/-- Computation with mutable state `S` that may raise; effects made before an exception persist, as in python. -/
def M (S : Type _) (α : Type _) := S → Py α × S

namespace M
variable {S α β : Type _}

/-- return -/
def pure (a : α) : M S α := fun s => (.ok a, s)
/-- sequencing; an exception skips the rest but keeps the state -/
def bind (m : M S α) (f : α → M S β) : M S β := fun s =>
  match m s with
  | (.ok a, s') => f a s'
  | (.error e, s') => (.error e, s')

instance : Monad (M S) where
  pure := M.pure
  bind := M.bind

/-- raise an exception -/
def raise (e : PyErr) : M S α := fun s => (.error e, s)
/-- read the state -/
def read : M S S := fun s => (.ok s, s)
/-- modify the state -/
def modify (f : S → S) : M S Unit := fun s => (.ok (), f s)
/-- lift a pure computation -/
def lift (x : Py α) : M S α := fun s => (x, s)

/-- Partial-correctness triple: from every state satisfying `P`, a normal return satisfies `Q` and an exceptional one `E`. -/
def Sat (P : S → Prop) (m : M S α) (Q : α → S → Prop) (E : PyErr → S → Prop) : Prop :=
  ∀ s, P s → match m s with
    | (.ok a, s') => Q a s'
    | (.error e, s') => E e s'

theorem Sat.bind {P : S → Prop} {m : M S α} {Q : α → S → Prop} {E : PyErr → S → Prop} {f : α → M S β}
    {R : β → S → Prop} (h1 : Sat P m Q E) (h2 : ∀ a, Sat (Q a) (f a) R E) :
    Sat P (m >>= f) R E := by
  intro s hs
  have := h1 s hs
  show match M.bind m f s with | (.ok a, s') => R a s' | (.error e, s') => E e s'
  unfold M.bind
  revert this
  rcases m s with ⟨_ | a, s'⟩
  · exact id
  · exact h2 a s'

theorem Sat.pure {P : S → Prop} {a : α} {Q : α → S → Prop} {E : PyErr → S → Prop} (h : ∀ s, P s → Q a s) :
    Sat P (Pure.pure a : M S α) Q E := fun s hs => h s hs

theorem Sat.raise {P : S → Prop} {e : PyErr} {Q : α → S → Prop} {E : PyErr → S → Prop} (h : ∀ s, P s → E e s) :
    Sat P (raise e : M S α) Q E := fun s hs => h s hs

theorem Sat.lift {P : S → Prop} {x : Py α} {Q : α → S → Prop} {E : PyErr → S → Prop}
    (h1 : ∀ a, x = .ok a → ∀ s, P s → Q a s) (h2 : ∀ e, x = .error e → ∀ s, P s → E e s) :
    Sat P (lift x) Q E := by
  intro s hs
  unfold M.lift
  rcases x with e | a
  · exact h2 e rfl s hs
  · exact h1 a rfl s hs

theorem Sat.conseq {P P' : S → Prop} {m : M S α} {Q Q' : α → S → Prop} {E E' : PyErr → S → Prop}
    (h : Sat P m Q E) (hP : ∀ s, P' s → P s) (hQ : ∀ a s, Q a s → Q' a s) (hE : ∀ e s, E e s → E' e s) :
    Sat P' m Q' E' := by
  intro s hs
  have := h s (hP s hs)
  revert this
  rcases m s with ⟨_ | a, s'⟩
  · exact hE _ _
  · exact hQ _ _

end M

end GC

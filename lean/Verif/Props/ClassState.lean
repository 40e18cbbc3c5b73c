import Verif.Model.ClassState

/-!
# The updaters of a partition (C55)

The property fails: `_first_time` writes the updaters passed to it into the class attribute `default_updaters`, which all partitions of the class
share.  The theorems say what is true instead.
-/

set_option linter.unusedSectionVars false
set_option autoImplicit false

namespace GC

variable {F : Type}

namespace Dict
variable {K W : Type} [DecidableEq K]

theorem get?_updateList (l : List (K × W)) (d : Dict K W) (hl : (l.map (·.1)).Nodup) (k : K) :
    (l.foldl (fun acc kv => acc.set kv.1 kv.2) d).get? k = ((⟨l⟩ : Dict K W).get? k).or (d.get? k) := by
  induction l generalizing d with
  | nil => rfl
  | cons e l ih =>
    rw [List.map_cons, List.nodup_cons] at hl
    rw [List.foldl_cons, ih _ hl.2, Dict.get?_set]
    by_cases h : k = e.1
    · subst h
      have : (⟨l⟩ : Dict K W).get? e.1 = none := Dict.get?_eq_none_iff.2 hl.1
      rw [this]
      simp [Dict.get?]
    · have h' : ¬ e.1 = k := fun x => h x.symm
      simp [Dict.get?, h, h']

/-- `d.update(e)`: the entries of `e` win -/
theorem get?_update {e : Dict K W} (he : e.WF) (d : Dict K W) (k : K) : (d.update e).get? k = (e.get? k).or (d.get? k) :=
  get?_updateList e.entries d he k

theorem mem_keys_update {e : Dict K W} (he : e.WF) (d : Dict K W) (k : K) : k ∈ (d.update e).keys ↔ k ∈ e.keys ∨ k ∈ d.keys := by
  rw [← Dict.get?_isSome_iff, ← Dict.get?_isSome_iff, ← Dict.get?_isSome_iff, get?_update he]
  cases e.get? k <;> simp

end Dict

/-- what a construction passes to `_first_time` -/
def passed (s : CState F) : Option DRef → Dict String F
  | none => .empty
  | some r => s.dicts r

/-- the dictionaries written by the user have distinct keys, as python dictionaries do -/
def COp.LitOk : COp F → Prop
  | .newDict d => d.WF
  | _ => True

/-- Invariant: dictionaries have distinct keys; partitions with default updaters share the dictionary of their class, the others have one of their own
(or their ancestor's). -/
structure CInv (s : CState F) : Prop where
  wf : ∀ r, (s.dicts r).WF
  shared : ∀ rec ∈ s.parts, rec.useDefault = true → rec.updaters = .cls rec.cls

theorem updateDict_inv {s : CState F} (h : CInv s) (r : DRef) (e : Dict String F) : CInv (s.updateDict r e) := by
  refine ⟨fun r' => ?_, h.shared⟩
  show (if r' = r then (s.dicts r).update e else s.dicts r').WF
  split_ifs
  · exact (h.wf r).update e
  · exact h.wf r'

theorem firstTime_inv {s : CState F} (h : CInv s) (cls : ℕ) (u : Option DRef) (useDefault valid : Bool) : CInv (firstTime s cls u useDefault valid) := by
  unfold firstTime
  cases valid with
  | false => exact h
  | true =>
    cases useDefault with
    | true =>
      have := updateDict_inv h (.cls cls) (passed s u)
      refine ⟨this.wf, fun rec hr => ?_⟩
      rcases List.mem_append.1 hr with hr | hr
      · exact h.shared rec hr
      · obtain rfl := List.mem_singleton.1 hr
        exact fun _ => rfl
    | false =>
      refine ⟨fun r' => ?_, fun rec hr => ?_⟩
      · show (if r' = .inst s.parts.length then Dict.empty.update (passed s u) else s.dicts r').WF
        split_ifs
        · exact Dict.wf_empty.update _
        · exact h.wf r'
      · rcases List.mem_append.1 hr with hr | hr
        · exact h.shared rec hr
        · obtain rfl := List.mem_singleton.1 hr
          exact fun h => by simp at h

theorem fresh_inv {s : CState F} (h : CInv s) {d : Dict String F} (hd : d.WF) :
    CInv { s with dicts := fun r => if r = .user s.users then d else s.dicts r, users := s.users + 1 } := by
  refine ⟨fun r' => ?_, h.shared⟩
  show (if r' = .user s.users then d else s.dicts r').WF
  split_ifs
  · exact hd
  · exact h.wf r'

/-- the state and the dictionary with which `Grid.__init__` goes on at grid.py:110 -/
theorem gridInit_cases (s : CState F) (cls : ℕ) (u : Option DRef) (valid : Bool) :
    (∃ r, u = some r ∧ (s.dicts r).entries.isEmpty = false ∧
      gridInit s cls u valid = firstTime (s.updateDict r (s.dicts (.cls cls))) cls (some r) true valid) ∨
    ((∀ r, u = some r → (s.dicts r).entries.isEmpty = true) ∧
      gridInit s cls u valid =
        firstTime (CState.updateDict { s with dicts := fun r' => if r' = .user s.users then .empty else s.dicts r', users := s.users + 1 }
          (.user s.users) (s.dicts (.cls cls))) cls (some (.user s.users)) true valid) := by
  cases u with
  | none => exact .inr ⟨fun r h => (by simp at h), rfl⟩
  | some r =>
    by_cases he : (s.dicts r).entries.isEmpty
    · refine .inr ⟨fun r' h => ?_, ?_⟩
      · obtain rfl := Option.some.inj h
        exact he
      · unfold gridInit
        simp only [he, if_true]
        rfl
    · refine .inl ⟨r, rfl, by simpa using he, ?_⟩
      unfold gridInit
      simp only [he]
      rfl

theorem gridInit_inv {s : CState F} (h : CInv s) (cls : ℕ) (u : Option DRef) (valid : Bool) : CInv (gridInit s cls u valid) := by
  rcases gridInit_cases s cls u valid with ⟨r, -, -, e⟩ | ⟨-, e⟩ <;> rw [e]
  · exact firstTime_inv (updateDict_inv h _ _) ..
  · exact firstTime_inv (updateDict_inv (fresh_inv h Dict.wf_empty) _ _) ..

theorem step_inv {s : CState F} (h : CInv s) (op : COp F) (hop : op.LitOk) : CInv (op.step s) := by
  cases op with
  | newDict d => exact fresh_inv h hop
  | construct cls u useDefault valid => exact firstTime_inv h ..
  | grid cls u valid => exact gridInit_inv h ..
  | flip p =>
    show CInv (flipRec s p)
    unfold flipRec
    cases hp : s.parts[p]? with
    | none => exact h
    | some r =>
      refine ⟨h.wf, fun rec hr => ?_⟩
      rcases List.mem_append.1 hr with hr | hr
      · exact h.shared rec hr
      · obtain rfl := List.mem_singleton.1 hr
        exact h.shared _ (List.mem_of_getElem? hp)

theorem crun_inv {s : CState F} (h : CInv s) (ops : List (COp F)) (hops : ∀ op ∈ ops, op.LitOk) : CInv (crun s ops) := by
  induction ops generalizing s with
  | nil => exact h
  | cons op ops ih => exact ih (step_inv h op (hops op List.mem_cons_self)) (fun o ho => hops o (List.mem_cons_of_mem _ ho))

theorem classInit_inv (defaults : ℕ → Dict String F) (hd : ∀ c, (defaults c).WF) : CInv (classInit defaults) := by
  refine ⟨fun r => ?_, fun rec hr => absurd hr List.not_mem_nil⟩
  cases r with
  | cls c => exact hd c
  | user _ => exact Dict.wf_empty
  | inst _ => exact Dict.wf_empty

/-! ### Keys of the class dictionary are never removed -/

theorem updateDict_keys {s : CState F} (r r' : DRef) {e : Dict String F} (he : e.WF) {k : String} (hk : k ∈ (s.dicts r').keys) :
    k ∈ ((s.updateDict r e).dicts r').keys := by
  show k ∈ (if r' = r then (s.dicts r).update e else s.dicts r').keys
  split_ifs with h
  · subst h
    exact (Dict.mem_keys_update he _ _).2 (.inr hk)
  · exact hk

theorem firstTime_keys {s : CState F} (h : CInv s) (cls : ℕ) (u : Option DRef) (useDefault valid : Bool) (c : ℕ) {k : String}
    (hk : k ∈ (s.dicts (.cls c)).keys) : k ∈ ((firstTime s cls u useDefault valid).dicts (.cls c)).keys := by
  have hp : (passed s u).WF := by
    cases u with
    | none => exact Dict.wf_empty
    | some r => exact h.wf r
  unfold firstTime
  cases valid with
  | false => exact hk
  | true => cases useDefault with
    | true => exact updateDict_keys (.cls cls) (.cls c) hp hk
    | false => exact hk

theorem step_keys {s : CState F} (h : CInv s) (op : COp F) (c : ℕ) {k : String} (hk : k ∈ (s.dicts (.cls c)).keys) :
    k ∈ ((op.step s).dicts (.cls c)).keys := by
  cases op with
  | newDict d => exact hk
  | construct cls u useDefault valid => exact firstTime_keys h cls u useDefault valid c hk
  | grid cls u valid =>
    show k ∈ ((gridInit s cls u valid).dicts (.cls c)).keys
    rcases gridInit_cases s cls u valid with ⟨r, -, -, e⟩ | ⟨-, e⟩ <;> rw [e]
    · exact firstTime_keys (updateDict_inv h _ _) _ _ _ _ c (updateDict_keys _ _ (h.wf _) hk)
    · exact firstTime_keys (updateDict_inv (fresh_inv h Dict.wf_empty) _ _) _ _ _ _ c (updateDict_keys _ _ (h.wf _) hk)
  | flip p =>
    show k ∈ ((flipRec s p).dicts (.cls c)).keys
    unfold flipRec
    cases s.parts[p]? <;> exact hk

theorem crun_keys {s : CState F} (h : CInv s) (ops : List (COp F)) (hops : ∀ op ∈ ops, op.LitOk) (c : ℕ) {k : String}
    (hk : k ∈ (s.dicts (.cls c)).keys) : k ∈ ((crun s ops).dicts (.cls c)).keys := by
  induction ops generalizing s with
  | nil => exact hk
  | cons op ops ih =>
    exact ih (step_inv h op (hops op List.mem_cons_self)) (fun o ho => hops o (List.mem_cons_of_mem _ ho)) (step_keys h op c hk)

/-- **C55** (violation, for all programs) Whatever happened before and whatever happens afterwards: an updater passed to one construction of a class
is from then on among the updaters of all partitions of that class that use the default updaters, whether they are created before or after. -/
theorem C55_leak_violation (defaults : ℕ → Dict String F) (hd : ∀ c, (defaults c).WF) (before after : List (COp F))
    (hb : ∀ op ∈ before, op.LitOk) (ha : ∀ op ∈ after, op.LitOk) (cls : ℕ) (r : DRef) (k : String)
    (hk : k ∈ ((crun (classInit defaults) before).dicts r).keys) (q : ℕ) (rec : PRec)
    (hq : (crun (classInit defaults) (before ++ .construct cls (some r) true true :: after)).parts[q]? = some rec)
    (hcls : rec.cls = cls) (hdef : rec.useDefault = true) :
    ∃ d, (crun (classInit defaults) (before ++ .construct cls (some r) true true :: after)).updatersOf q = some d ∧ k ∈ d.keys := by
  have h0 := crun_inv (classInit_inv defaults hd) before hb
  have h1 := step_inv h0 (.construct cls (some r) true true) trivial
  have h2 := crun_inv h1 after ha
  have e : crun (classInit defaults) (before ++ .construct cls (some r) true true :: after) =
      crun (COp.step (crun (classInit defaults) before) (.construct cls (some r) true true)) after := by
    unfold crun
    rw [List.foldl_append, List.foldl_cons]
  rw [e] at hq ⊢
  refine ⟨_, by rw [CState.updatersOf, hq]; rfl, ?_⟩
  beta_reduce
  rw [h2.shared rec (List.mem_of_getElem? hq) hdef, hcls]
  refine crun_keys h1 after ha cls ?_
  show k ∈ (if DRef.cls cls = .cls cls then ((crun (classInit defaults) before).dicts (.cls cls)).update
    ((crun (classInit defaults) before).dicts r) else _).keys
  rw [if_pos rfl]
  exact (Dict.mem_keys_update (h0.wf r) _ _).2 (.inl hk)

/-! ### What can be relied on -/

/-- `Q` holds at every operation of the program -/
def AlongRun (Q : CState F → COp F → Prop) : CState F → List (COp F) → Prop
  | _, [] => True
  | s, op :: ops => Q s op ∧ AlongRun Q (op.step s) ops

theorem alongRun_append (Q : CState F → COp F → Prop) (s : CState F) (a b : List (COp F)) :
    AlongRun Q s (a ++ b) ↔ AlongRun Q s a ∧ AlongRun Q (crun s a) b := by
  induction a generalizing s with
  | nil => exact ⟨fun h => ⟨trivial, h⟩, fun h => h.2⟩
  | cons op a ih =>
    show (_ ∧ AlongRun Q (op.step s) (a ++ b)) ↔ (_ ∧ _) ∧ _
    rw [ih, and_assoc]
    rfl

/-- The operation passes to class `c` only updaters that `want` has as well, and the dictionary of `c` is not handed to a `Grid` to be written to. -/
def Compatible (c : ℕ) (want : String → Option F) (s : CState F) : COp F → Prop
  | .construct cls u useDefault valid => cls = c → useDefault = true → valid = true → ∀ k f, (passed s u).get? k = some f → want k = some f
  | .grid cls u _ => u ≠ some (.cls c) ∧ (cls = c → u = none)
  | _ => True

/-- a compatible operation leaves an entry of the class dictionary as it is or sets it to the wanted one -/
theorem step_compatible {s : CState F} (h : CInv s) (op : COp F) (c : ℕ) (want : String → Option F) (hop : Compatible c want s op) (k : String) :
    ((op.step s).dicts (.cls c)).get? k = (s.dicts (.cls c)).get? k ∨
    (((op.step s).dicts (.cls c)).get? k = want k ∧ (want k).isSome) := by
  cases op with
  | newDict d => exact .inl rfl
  | flip p =>
    left
    show ((flipRec s p).dicts (.cls c)).get? k = _
    unfold flipRec
    cases s.parts[p]? <;> rfl
  | construct cls u useDefault valid =>
    have hp : (passed s u).WF := by
      cases u with
      | none => exact Dict.wf_empty
      | some r => exact h.wf r
    show ((firstTime s cls u useDefault valid).dicts (.cls c)).get? k = _ ∨ ((firstTime s cls u useDefault valid).dicts (.cls c)).get? k = _ ∧ _
    unfold firstTime
    cases valid with
    | false => exact .inl rfl
    | true => cases useDefault with
      | false => exact .inl rfl
      | true =>
        show (if DRef.cls c = .cls cls then (s.dicts (.cls cls)).update (passed s u) else s.dicts (.cls c)).get? k = _ ∨
          (if DRef.cls c = .cls cls then (s.dicts (.cls cls)).update (passed s u) else s.dicts (.cls c)).get? k = _ ∧ _
        by_cases hc : cls = c
        · subst hc
          rw [if_pos rfl, Dict.get?_update hp]
          cases hg : (passed s u).get? k with
          | none => exact .inl rfl
          | some f =>
            right
            rw [hop rfl rfl rfl k f hg]
            exact ⟨rfl, rfl⟩
        · rw [if_neg (fun e => hc (DRef.cls.inj e).symm)]
          exact .inl rfl
  | grid cls u valid =>
    left
    show ((gridInit s cls u valid).dicts (.cls c)).get? k = _
    rcases gridInit_cases s cls u valid with ⟨r, hu, -, e⟩ | ⟨-, e⟩
    · have hrc : ¬ DRef.cls c = r := fun x => hop.1 (by rw [hu, x])
      have hcc : ¬ DRef.cls c = .cls cls := fun x => by
        have := hop.2 (DRef.cls.inj x).symm
        rw [hu] at this
        simp at this
      rw [e]
      unfold firstTime
      cases valid with
      | false =>
        show (if DRef.cls c = r then _ else s.dicts (.cls c)).get? k = _
        rw [if_neg hrc]
      | true =>
        show (if DRef.cls c = .cls cls then _ else if DRef.cls c = r then _ else s.dicts (.cls c)).get? k = _
        rw [if_neg hcc, if_neg hrc]
    · rw [e]
      unfold firstTime
      cases valid with
      | false => rfl
      | true =>
        show (if DRef.cls c = .cls cls then (s.dicts (.cls cls)).update (if DRef.user s.users = .user s.users then
          (if DRef.user s.users = .user s.users then Dict.empty else s.dicts (.user s.users)).update (s.dicts (.cls cls)) else _)
          else s.dicts (.cls c)).get? k = _
        rw [if_pos rfl, if_pos rfl]
        by_cases hc : DRef.cls c = .cls cls
        · rw [if_pos hc, hc, Dict.get?_update (Dict.wf_empty.update _), Dict.get?_update (h.wf _)]
          cases ((s.dicts (.cls cls)).get? k) <;> rfl
        · rw [if_neg hc]

theorem crun_compatible {s : CState F} (h : CInv s) (ops : List (COp F)) (hops : ∀ op ∈ ops, op.LitOk) (c : ℕ) (want : String → Option F)
    (hc : AlongRun (Compatible c want) s ops) (k : String) :
    ((crun s ops).dicts (.cls c)).get? k = (s.dicts (.cls c)).get? k ∨
    (((crun s ops).dicts (.cls c)).get? k = want k ∧ (want k).isSome) := by
  induction ops generalizing s with
  | nil => exact .inl rfl
  | cons op ops ih =>
    rcases ih (step_inv h op (hops op List.mem_cons_self)) (fun o ho => hops o (List.mem_cons_of_mem _ ho)) hc.2 with h1 | h1
    · rcases step_compatible h op c want hc.1 k with h2 | h2
      · exact .inl (h1.trans h2)
      · exact .inr ⟨h1.trans h2.1, h2.2⟩
    · exact .inr h1

theorem crun_parts_prefix (s : CState F) (ops : List (COp F)) : s.parts <+: (crun s ops).parts := by
  induction ops generalizing s with
  | nil => exact List.prefix_rfl
  | cons op ops ih =>
    refine List.IsPrefix.trans ?_ (ih (op.step s))
    have hf : ∀ (s' : CState F) (cls : ℕ) (u : Option DRef) (a b : Bool), s'.parts <+: (firstTime s' cls u a b).parts := by
      intro s' cls u a b
      unfold firstTime
      cases b with
      | false => exact List.prefix_rfl
      | true => cases a <;> exact List.prefix_append _ _
    cases op with
    | newDict d => exact List.prefix_rfl
    | construct cls u a b => exact hf s cls u a b
    | grid cls u valid =>
      show s.parts <+: (gridInit s cls u valid).parts
      rcases gridInit_cases s cls u valid with ⟨r, hu, -, e⟩ | ⟨-, e⟩ <;> rw [e]
      · exact hf (s.updateDict r (s.dicts (.cls cls))) cls (some r) true valid
      · exact hf (CState.updateDict { s with dicts := fun r' => if r' = .user s.users then .empty else s.dicts r', users := s.users + 1 }
          (.user s.users) (s.dicts (.cls cls))) cls (some (.user s.users)) true valid
    | flip p =>
      show s.parts <+: (flipRec s p).parts
      unfold flipRec
      cases s.parts[p]? with
      | none => exact List.prefix_rfl
      | some r => exact List.prefix_append _ _

/-- **C55** (partial) If all constructions of the class (with default updaters), before and after, pass only updaters that this construction passes or that are defaults,
then the partition's updaters are, forever, the defaults of its class overridden by those passed to it.  What is missing: the property claims this
whatever else is constructed, see `C55_leak_violation`. -/
theorem C55_defaults_plus_own_partial (defaults : ℕ → Dict String F) (hd : ∀ c, (defaults c).WF) (before after : List (COp F))
    (hb : ∀ op ∈ before, op.LitOk) (ha : ∀ op ∈ after, op.LitOk) (cls : ℕ) (u : Option DRef)
    (hcompat : AlongRun (Compatible cls (fun k => ((passed (crun (classInit defaults) before) u).get? k).or ((defaults cls).get? k)))
      (classInit defaults) (before ++ .construct cls u true true :: after)) :
    ∃ d, (crun (classInit defaults) (before ++ .construct cls u true true :: after)).updatersOf (crun (classInit defaults) before).parts.length = some d ∧
      ∀ k, d.get? k = ((passed (crun (classInit defaults) before) u).get? k).or ((defaults cls).get? k) := by
  have h0 := crun_inv (classInit_inv defaults hd) before hb
  have h1 := step_inv h0 (.construct cls u true true) trivial
  rw [alongRun_append] at hcompat
  obtain ⟨c1, -, c2⟩ := hcompat
  have e : crun (classInit defaults) (before ++ .construct cls u true true :: after) =
      crun (COp.step (crun (classInit defaults) before) (.construct cls u true true)) after := by
    unfold crun
    rw [List.foldl_append, List.foldl_cons]
  have hpre := crun_parts_prefix (COp.step (crun (classInit defaults) before) (.construct cls u true true)) after
  have hat : (COp.step (crun (classInit defaults) before) (.construct cls u true true)).parts[(crun (classInit defaults) before).parts.length]? =
      some ⟨cls, true, .cls cls⟩ := by
    show ((crun (classInit defaults) before).parts ++ [⟨cls, true, .cls cls⟩])[_]? = _
    simp
  have hat2 : (crun (COp.step (crun (classInit defaults) before) (.construct cls u true true)) after).parts[(crun (classInit defaults) before).parts.length]? =
      some ⟨cls, true, .cls cls⟩ := by
    obtain ⟨t, ht⟩ := hpre
    rw [← ht, List.getElem?_append_left (List.getElem?_eq_some_iff.1 hat).1, hat]
  rw [e]
  refine ⟨_, by rw [CState.updatersOf, hat2]; rfl, fun k => ?_⟩
  beta_reduce
  have hk1 : ((COp.step (crun (classInit defaults) before) (.construct cls u true true)).dicts (.cls cls)).get? k =
      ((passed (crun (classInit defaults) before) u).get? k).or ((defaults cls).get? k) := by
    show (if DRef.cls cls = .cls cls then ((crun (classInit defaults) before).dicts (.cls cls)).update
      (passed (crun (classInit defaults) before) u) else _).get? k = _
    have hp : (passed (crun (classInit defaults) before) u).WF := by
      cases u with
      | none => exact Dict.wf_empty
      | some r => exact h0.wf r
    rw [if_pos rfl, Dict.get?_update hp]
    cases hg : (passed (crun (classInit defaults) before) u).get? k with
    | some f => rfl
    | none =>
      rcases crun_compatible (classInit_inv defaults hd) before hb cls _ c1 k with h | h
      · rw [h]; rfl
      · rw [h.1, hg]; rfl
  rcases crun_compatible h1 after ha cls _ c2 k with h | h
  · rw [h, hk1]
  · exact h.1

/-- **C55** A partition constructed with `use_default_updaters=False` has exactly the updaters passed to it, whatever else is constructed, unless its
own dictionary is passed to a `Grid`. -/
theorem C55_without_defaults (s : CState F) (hs : CInv s) (cls : ℕ) (u : Option DRef) (after : List (COp F))
    (hgrid : ∀ c b, COp.grid c (some (.inst s.parts.length)) b ∉ after) :
    ∃ d, (crun (COp.step s (.construct cls u false true)) after).updatersOf s.parts.length = some d ∧ ∀ k, d.get? k = (passed s u).get? k := by
  have hp : (passed s u).WF := by
    cases u with
    | none => exact Dict.wf_empty
    | some r => exact hs.wf r
  have hat : (COp.step s (.construct cls u false true)).parts[s.parts.length]? = some ⟨cls, false, .inst s.parts.length⟩ := by
    show (s.parts ++ [⟨cls, false, .inst s.parts.length⟩])[_]? = _
    simp
  have hat2 : (crun (COp.step s (.construct cls u false true)) after).parts[s.parts.length]? = some ⟨cls, false, .inst s.parts.length⟩ := by
    obtain ⟨t, ht⟩ := crun_parts_prefix (COp.step s (.construct cls u false true)) after
    rw [← ht, List.getElem?_append_left (List.getElem?_eq_some_iff.1 hat).1, hat]
  have hcell : (COp.step s (.construct cls u false true)).dicts (.inst s.parts.length) = Dict.empty.update (passed s u) := by
    show (if DRef.inst s.parts.length = .inst s.parts.length then _ else _) = _
    rw [if_pos rfl]
    rfl
  have key : ∀ (p : ℕ) (ops : List (COp F)) (t : CState F), p < t.parts.length → (∀ c b, COp.grid c (some (.inst p)) b ∉ ops) →
      (crun t ops).dicts (.inst p) = t.dicts (.inst p) := by
    intro p ops
    induction ops with
    | nil => exact fun _ _ _ => rfl
    | cons op ops ih =>
      intro t ht hg
      have hlen : p < (op.step t).parts.length := Nat.lt_of_lt_of_le ht (crun_parts_prefix t [op]).length_le
      refine (ih (op.step t) hlen (fun c b h => hg c b (List.mem_cons_of_mem _ h))).trans ?_
      have hf : ∀ (s' : CState F) (cls : ℕ) (u : Option DRef) (a b : Bool), p < s'.parts.length →
          (firstTime s' cls u a b).dicts (.inst p) = s'.dicts (.inst p) := by
        intro s' cls u a b hlt
        unfold firstTime
        cases b with
        | false => rfl
        | true => cases a with
          | true => rfl
          | false =>
            show (if DRef.inst p = .inst s'.parts.length then _ else s'.dicts (.inst p)) = _
            rw [if_neg (fun x => absurd (DRef.inst.inj x) (by omega))]
      cases op with
      | newDict d => rfl
      | construct cls u a b => exact hf t cls u a b ht
      | grid cls u valid =>
        show (gridInit t cls u valid).dicts (.inst p) = _
        rcases gridInit_cases t cls u valid with ⟨r, hu, -, e⟩ | ⟨-, e⟩ <;> rw [e]
        · refine (hf _ _ _ _ _ ?_).trans ?_
          · exact ht
          show (if DRef.inst p = r then _ else t.dicts (.inst p)) = _
          rw [if_neg]
          rintro rfl
          exact hg cls valid (hu ▸ List.mem_cons_self)
        · refine (hf _ _ _ _ _ ?_).trans ?_
          · exact ht
          · rfl
      | flip q =>
        show (flipRec t q).dicts (.inst p) = _
        unfold flipRec
        cases t.parts[q]? <;> rfl
  refine ⟨_, by rw [CState.updatersOf, hat2]; rfl, fun k => ?_⟩
  beta_reduce
  rw [key _ after _ (List.getElem?_eq_some_iff.1 hat).1 hgrid, hcell, Dict.get?_update hp]
  cases (passed s u).get? k <;> rfl

/-- **C55** A flipped partition has the very updaters dictionary of its parent. -/
theorem C55_flip_shares (s : CState F) (p : ℕ) (hp : p < s.parts.length) (after : List (COp F)) :
    (crun (COp.step s (.flip p)) after).updatersOf s.parts.length = (crun (COp.step s (.flip p)) after).updatersOf p := by
  have hpp : s.parts[p]? = some s.parts[p] := List.getElem?_eq_getElem hp
  have hst : (COp.step s (.flip p)).parts = s.parts ++ [s.parts[p]] := by
    show (flipRec s p).parts = _
    unfold flipRec
    rw [hpp]
  obtain ⟨t, ht⟩ := crun_parts_prefix (COp.step s (.flip p)) after
  have h1 : (crun (COp.step s (.flip p)) after).parts[s.parts.length]? = some s.parts[p] := by
    rw [← ht, hst]
    simp
  have h2 : (crun (COp.step s (.flip p)) after).parts[p]? = some s.parts[p] := by
    rw [← ht, hst, List.append_assoc, List.getElem?_append_left hp, hpp]
  unfold CState.updatersOf
  rw [h1, h2]

/-- **C55** (violation, for all grids) `Grid((m, n), updaters=d)` with a nonempty `d` writes all default updaters into the user's dictionary, and an
updater of the user with the name of a default one is ignored. -/
theorem C55_grid_violation (s : CState F) (hs : CInv s) (cls i : ℕ) (hne : (s.dicts (.user i)).entries ≠ []) (k : String) (f : F)
    (hk : (s.dicts (.cls cls)).get? k = some f) :
    (((COp.grid cls (some (.user i)) true).step s).dicts (.user i)).get? k = some f ∧
    ∃ d, ((COp.grid cls (some (.user i)) true).step s).updatersOf s.parts.length = some d ∧ d.get? k = some f := by
  have he : (s.dicts (.user i)).entries.isEmpty = false := by
    cases h : (s.dicts (.user i)).entries with
    | nil => exact absurd h hne
    | cons => rfl
  have e : (COp.grid cls (some (.user i)) true).step s =
      firstTime (s.updateDict (.user i) (s.dicts (.cls cls))) cls (some (.user i)) true true := by
    rcases gridInit_cases s cls (some (.user i)) true with ⟨r, hu, -, e⟩ | ⟨h, -⟩
    · obtain rfl := Option.some.inj hu
      exact e
    · rw [h _ rfl] at he
      simp at he
  have h1 := updateDict_inv hs (.user i) (s.dicts (.cls cls))
  have hu : ((s.updateDict (.user i) (s.dicts (.cls cls))).dicts (.user i)).get? k = some f := by
    show (if DRef.user i = .user i then (s.dicts (.user i)).update (s.dicts (.cls cls)) else _).get? k = _
    rw [if_pos rfl, Dict.get?_update (hs.wf _), hk]
    rfl
  rw [e]
  refine ⟨hu, ((s.updateDict (.user i) (s.dicts (.cls cls))).dicts (.cls cls)).update
    ((s.updateDict (.user i) (s.dicts (.cls cls))).dicts (.user i)), ?_, ?_⟩
  · have hat : (firstTime (s.updateDict (.user i) (s.dicts (.cls cls))) cls (some (.user i)) true true).parts[s.parts.length]? =
        some ⟨cls, true, .cls cls⟩ := by
      show (s.parts ++ [⟨cls, true, .cls cls⟩])[_]? = _
      simp
    rw [CState.updatersOf, hat]
    show some (if DRef.cls cls = .cls cls then _ else _) = _
    rw [if_pos rfl]
  · rw [Dict.get?_update (h1.wf _), hu]
    rfl

/-! ### Examples; classes 0 = `Partition`, 2 = `Grid`; functions are named by strings -/

/-- the defaults of `Partition` and (some of) those of `Grid` -/
def exDefaults : ℕ → Dict String String
  | 0 => ⟨[("cut_edges", "cut_edges")]⟩
  | 2 => ⟨[("cut_edges", "cut_edges"), ("population", "Tally(population)"), ("perimeter", "perimeter")]⟩
  | _ => .empty

/-- **C55** (violation) `a = Partition(g, x, {"population": Tally("TOTPOP")})`, `b = Partition(h, y)`, `c = Partition(h, y, {"population": Tally("VAP")})`:
`b` has an updater "population" although neither passed nor default, and in the end that of `a` is the one passed to `c`. -/
theorem C55_violation :
    let s := crun (classInit exDefaults) [.newDict ⟨[("population", "Tally(TOTPOP)")]⟩, .construct 0 (some (.user 0)) true true, .construct 0 none true true]
    let t := crun s [.newDict ⟨[("population", "Tally(VAP)")]⟩, .construct 0 (some (.user 1)) true true]
    s.updatersOf 1 = some ⟨[("cut_edges", "cut_edges"), ("population", "Tally(TOTPOP)")]⟩ ∧
    s.updatersOf 0 = some ⟨[("cut_edges", "cut_edges"), ("population", "Tally(TOTPOP)")]⟩ ∧
    t.updatersOf 0 = some ⟨[("cut_edges", "cut_edges"), ("population", "Tally(VAP)")]⟩ := by
  refine ⟨rfl, rfl, rfl⟩

/-- A program that meets the hypotheses of `C55_defaults_plus_own_partial`: two partitions with the same updaters, a grid, one without updaters. -/
example :
    let before : List (COp String) := [.newDict ⟨[("population", "Tally(TOTPOP)")]⟩, .construct 0 (some (.user 0)) true true, .grid 2 none true]
    let after : List (COp String) := [.construct 0 none true true, .flip 0, .construct 0 none false true]
    AlongRun (Compatible 0 (fun k => ((passed (crun (classInit exDefaults) before) (some (.user 0))).get? k).or ((exDefaults 0).get? k)))
      (classInit exDefaults) (before ++ .construct 0 (some (.user 0)) true true :: after) := by
  have hk : ∀ (k f : String), (⟨[("population", "Tally(TOTPOP)")]⟩ : Dict String String).get? k = some f →
      ((⟨[("population", "Tally(TOTPOP)")]⟩ : Dict String String).get? k).or ((exDefaults 0).get? k) = some f := by
    intro k f h
    rw [h]
    rfl
  refine ⟨trivial, fun _ _ _ k f h => hk k f h, ⟨by simp, fun h => by simp at h⟩, fun _ _ _ k f h => hk k f h, fun _ _ _ k f h => ?_, trivial,
    fun _ h => by simp at h, trivial⟩
  simp [passed] at h

/-- `Grid((4, 4), updaters={"population": mine})`: the user's updater is replaced by the default -/
example : let s := crun (classInit exDefaults) [.newDict ⟨[("population", "mine")]⟩, .grid 2 (some (.user 0)) true]
    (s.updatersOf 0).bind (·.get? "population") = some "Tally(population)" ∧ (s.dicts (.user 0)).keys = ["population", "cut_edges", "perimeter"] := by
  refine ⟨rfl, rfl⟩

end GC

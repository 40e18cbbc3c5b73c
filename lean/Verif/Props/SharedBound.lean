import Verif.Model.Compactness
import Verif.Props.Chain

/-!
# Constraint objects shared by several chains (C89)
-/

set_option linter.unusedSectionVars false
set_option autoImplicit false

namespace GC

/-! ### an invariant of the world that the whole run keeps -/

section
variable {S R : Type}

/-- the computations of a chain keep `Inv`, and a plan that passes the constraints while `Inv` holds is `Good` -/
structure KeepsInv (c : ChainCfg S R) (cs : List (Constraint S R)) (Inv : S → Prop) (Good : R → Prop) : Prop where
  proposal : ∀ r s, Inv s → Inv (c.proposal r s).2
  accept : ∀ r s, Inv s → Inv (c.accept r s).2
  erase : ∀ r s, Inv s → Inv (c.erase r s)
  validator : ∀ r s, Inv s → Inv (validator r cs s).2 ∧ ((validator r cs s).1 = .ok true → Good r)

theorem loop_keeps {c : ChainCfg S R} {ch : Chain S R} {Inv : S → Prop} {Good : R → Prop} (h : KeepsInv c ch.isValid Inv Good)
    (hst : Good ch.state) {k fuel : ℕ} {s s' : S} {r : Py R} {ch' : Chain S R} (hs : Inv s)
    (hl : Chain.loop c ch k fuel s = some (r, ch', s')) :
    Inv s' ∧ Good ch'.state ∧ ch'.isValid = ch.isValid ∧ ∀ y, r = .ok y → Good y := by
  induction fuel generalizing s with
  | zero => cases hl
  | succ fuel ih =>
    unfold Chain.loop at hl
    split_ifs at hl with hk
    · have h1 := h.proposal ch.state s hs
      rcases hp : c.proposal ch.state s with ⟨e | q, s1⟩ <;> rw [hp] at hl h1 <;> simp only at hl h1
      · cases hl; exact ⟨h1, hst, rfl, fun y hy => by cases hy⟩
      · have h2 := h.erase ch.state s1 h1
        have h3 := h.validator q _ h2
        rcases hv : validator q ch.isValid (c.erase ch.state s1) with ⟨e | (_ | _), s3⟩ <;> rw [hv] at hl h3 <;> simp only at hl h3
        · cases hl; exact ⟨h3.1, hst, rfl, fun y hy => by cases hy⟩
        · exact ih h3.1 hl
        · have h4 := h.accept q s3 h3.1
          rcases ha : c.accept q s3 with ⟨e | (_ | _), s4⟩ <;> rw [ha] at hl h4 <;> simp only at hl h4
          · cases hl; exact ⟨h4, hst, rfl, fun y hy => by cases hy⟩
          · cases hl; exact ⟨h4, hst, rfl, fun y hy => by cases hy; exact hst⟩
          · cases hl; exact ⟨h4, h3.2 trivial, rfl, fun y hy => by cases hy; exact h3.2 trivial⟩
    · cases hl; exact ⟨hs, hst, rfl, fun y hy => by cases hy⟩

theorem collect_keeps {c : ChainCfg S R} {Inv : S → Prop} {Good : R → Prop} {fuel body : ℕ} {ch ch' : Chain S R} {s s' : S} {ys : List R}
    (h : KeepsInv c ch.isValid Inv Good) (hst : Good ch.state) (hs : Inv s)
    (hl : Chain.collect c fuel body ch s = some (.ok ys, ch', s')) : Inv s' ∧ ∀ y ∈ ys, Good y := by
  induction body generalizing ch s ys with
  | zero => cases hl
  | succ body ih =>
    unfold Chain.collect at hl
    have hnext : ∀ r ch1 s1, ch.next c fuel s = some (r, ch1, s1) → Inv s1 ∧ Good ch1.state ∧ ch1.isValid = ch.isValid ∧ ∀ y, r = .ok y → Good y := by
      intro r ch1 s1 hn
      unfold Chain.next at hn
      rcases hc : ch.counter with _ | (_ | k) <;> rw [hc] at hn <;> simp only at hn
      · cases hn; exact ⟨hs, hst, rfl, fun y hy => by cases hy⟩
      · cases hn; exact ⟨hs, hst, rfl, fun y hy => by cases hy; exact hst⟩
      · exact loop_keeps h hst hs hn
    rcases hn : ch.next c fuel s with _ | ⟨r, ch1, s1⟩
    · rw [hn] at hl; cases hl
    obtain ⟨n1, n2, n3, n4⟩ := hnext r ch1 s1 hn
    rw [hn] at hl
    rcases r with e | x
    · rcases e <;> simp at hl
      obtain ⟨rfl, rfl, rfl⟩ := hl
      exact ⟨n1, by simp⟩
    · simp only at hl
      rcases hr : Chain.collect c fuel body ch1 s1 with _ | ⟨_ | xs, ch2, s2⟩ <;> rw [hr] at hl <;> simp only at hl
      · cases hl
      · cases hl
      · simp only [Option.some.injEq, Prod.mk.injEq, Except.ok.injEq] at hl
        obtain ⟨rfl, rfl, rfl⟩ := hl
        obtain ⟨i1, i2⟩ := ih (by rw [n3]; exact h) n2 n1 hr
        refine ⟨i1, fun y hy => ?_⟩
        rcases List.mem_cons.1 hy with rfl | hy
        · exact n4 _ rfl
        · exact i2 y hy

end

/-! ### constraints that remember a bound -/

section
variable {K X R : Type} [Field K] [LinearOrder K] [IsStrictOrderedRing K]

/-- What both self-configuring bounds do with the value `v r` of a plan: the first call on an unset bound stores `conf (v r)`; the answer is
whether `ok bound (v r)`. -/
structure Remembers (con : Constraint (X × Option (Option K)) R) (v : R → Option K) (conf : Option K → Option K)
    (ok : Option K → Option K → Bool) : Prop where
  first : ∀ r s a s', unset s.2 = true → con.call r s = (.ok a, s') → a = .bool (ok (conf (v r)) (v r)) ∧ s'.2 = some (conf (v r))
  later : ∀ r s x s', unset s.2 = false → con.call r s = (x, s') → s'.2 = s.2 ∧ ∀ a, x = .ok a → a = .bool (ok (s.2.getD none) (v r))
  named : con.name.isSome

/-- `f` computes `v`: it returns `v r` or raises -/
def Computes (f : R → M X (Option K)) (v : R → Option K) : Prop := ∀ r x w x', f r x = (.ok w, x') → w = v r

theorem selfUpper_remembers {f : R → M X (Option K)} {v : R → Option K} (hf : Computes f v) (name : String) :
    Remembers (selfUpperCon f name) v id (fun b w => nanLe w b) := by
  refine ⟨?_, ?_, rfl⟩
  · intro r s a s' hu h
    unfold selfUpperCon at h
    simp only [hu, if_true] at h
    rcases h1 : f r s.1 with ⟨e | w, x⟩ <;> rw [h1] at h <;> simp only at h
    · cases h
    rcases h2 : f r x with ⟨e | w', x'⟩ <;> rw [h2] at h <;> simp only at h
    · cases h
    cases h
    rw [hf _ _ _ _ h1, hf _ _ _ _ h2]
    exact ⟨rfl, rfl⟩
  · intro r s y s' hu h
    unfold selfUpperCon at h
    simp only [hu, Bool.false_eq_true, if_false] at h
    rcases h1 : f r s.1 with ⟨e | w, x⟩ <;> rw [h1] at h <;> simp only at h
    · cases h; exact ⟨rfl, fun a ha => by cases ha⟩
    · cases h; exact ⟨rfl, fun a ha => by cases ha; rw [hf _ _ _ _ h1]⟩

theorem selfLower_remembers {f : R → M X (Option K)} {v : R → Option K} (hf : Computes f v) (epsilon : K) (name : String) :
    Remembers (selfLowerCon f epsilon name) v (fun w => w.map (· - epsilon)) (fun b w => nanLe b w) := by
  refine ⟨?_, ?_, rfl⟩
  · intro r s a s' hu h
    unfold selfLowerCon at h
    simp only [hu, if_true] at h
    rcases h1 : f r s.1 with ⟨e | w, x⟩ <;> rw [h1] at h <;> simp only at h
    · cases h
    rcases h2 : f r x with ⟨e | w', x'⟩ <;> rw [h2] at h <;> simp only at h
    · cases h
    cases h
    rw [hf _ _ _ _ h1, hf _ _ _ _ h2]
    exact ⟨rfl, rfl⟩
  · intro r s y s' hu h
    unfold selfLowerCon at h
    simp only [hu, Bool.false_eq_true, if_false] at h
    rcases h1 : f r s.1 with ⟨e | w, x⟩ <;> rw [h1] at h <;> simp only at h
    · cases h; exact ⟨rfl, fun a ha => by cases ha⟩
    · cases h; exact ⟨rfl, fun a ha => by cases ha; rw [hf _ _ _ _ h1]⟩

/-- the other constraints of a chain do not write the bound of this one -/
def LeaveBound (con : Constraint (X × Option (Option K)) R) (cs : List (Constraint (X × Option (Option K)) R)) : Prop :=
  ∀ con' ∈ cs, con' = con ∨ ∀ r s, (con'.call r s).2.2 = s.2

theorem call_leaves {con : Constraint (X × Option (Option K)) R} {v conf ok} (h : Remembers con v conf ok) {cs} (hcs : LeaveBound con cs)
    {con' : Constraint (X × Option (Option K)) R} (hm : con' ∈ cs) {r : R} {s : X × Option (Option K)} (hu : unset s.2 = false) :
    (con'.call r s).2.2 = s.2 := by
  rcases hcs con' hm with rfl | h'
  · exact (h.later r s _ _ hu rfl).1
  · exact h' r s

/-- while the bound is set, no constraint changes it, and what passes is within the bound -/
theorem validator_later {con : Constraint (X × Option (Option K)) R} {v conf ok} (h : Remembers con v conf ok) {cs} (hcs : LeaveBound con cs)
    (r : R) (s : X × Option (Option K)) (hu : unset s.2 = false) :
    (validator r cs s).2.2 = s.2 ∧ ((validator r cs s).1 = .ok true → con ∈ cs → ok (s.2.getD none) (v r) = true) := by
  induction cs generalizing s with
  | nil => exact ⟨rfl, fun _ hc => by simp at hc⟩
  | cons d cs ih =>
    have h1 := call_leaves h hcs List.mem_cons_self (r := r) hu
    have ih' := ih (fun c hc => hcs c (List.mem_cons_of_mem _ hc))
    unfold validator
    rcases hc : d.call r s with ⟨e | a, s1⟩
    · rw [hc] at h1; exact ⟨h1, fun hx => by cases hx⟩
    · rw [hc] at h1
      simp only at h1
      have hok : con = d → a = .bool (ok (s.2.getD none) (v r)) := by
        rintro rfl
        exact (h.later r s _ _ hu hc).2 a rfl
      rcases a with (_ | _) | (_ | _) | b <;> simp only
      · exact ⟨h1, fun hx => by cases hx⟩
      · obtain ⟨i1, i2⟩ := ih' s1 (by rw [h1]; exact hu)
        refine ⟨i1.trans h1, fun hx hm => ?_⟩
        rcases List.mem_cons.1 hm with hm | hm
        · have := hok hm
          simp only [CVal.bool.injEq] at this
          exact this.symm
        · rw [← h1]; exact i2 hx hm
      · exact ⟨h1, fun hx => by cases hx⟩
      · obtain ⟨i1, i2⟩ := ih' s1 (by rw [h1]; exact hu)
        refine ⟨i1.trans h1, fun hx hm => ?_⟩
        rcases List.mem_cons.1 hm with hm | hm
        · have := hok hm
          cases this
        · rw [← h1]; exact i2 hx hm
      · exact ⟨h1, fun hx => by cases hx⟩

/-- when all constraints pass while the bound is unset, it has been configured by this plan -/
theorem validator_first {con : Constraint (X × Option (Option K)) R} {v conf ok} (h : Remembers con v conf ok) {cs} (hcs : LeaveBound con cs)
    (hm : con ∈ cs) (r : R) (s s' : X × Option (Option K)) (hu : unset s.2 = true) (hv : validator r cs s = (.ok true, s')) :
    s'.2 = some (conf (v r)) ∧ ok (conf (v r)) (v r) = true := by
  induction cs generalizing s with
  | nil => simp at hm
  | cons d cs ih =>
    unfold validator at hv
    rcases hc : d.call r s with ⟨e | a, s1⟩ <;> rw [hc] at hv
    · cases hv
    by_cases hd : con = d
    · subst hd
      obtain ⟨f1, f2⟩ := h.first r s a s1 hu hc
      rw [f1] at hv
      rcases hok : ok (conf (v r)) (v r) with _ | _ <;> rw [hok] at hv <;> simp only at hv
      · cases hv
      refine ⟨?_, rfl⟩
      rcases hu1 : unset s1.2 with _ | _
      · have := (validator_later h (fun c hc => hcs c (List.mem_cons_of_mem _ hc)) r s1 hu1).1
        rw [hv] at this
        rw [← f2]; exact this
      · -- the configured bound is zero: a further occurrence of the constraint would configure it again, to the same value
        clear hc ih
        have key : ∀ (l : List (Constraint (X × Option (Option K)) R)) (t : X × Option (Option K)), LeaveBound con l → t.2 = some (conf (v r)) →
            ∀ t', validator r l t = (.ok true, t') → t'.2 = some (conf (v r)) := by
          intro l
          induction l with
          | nil => intro t _ ht t' h'; cases h'; exact ht
          | cons g l ihl =>
            intro t hl ht t' h'
            unfold validator at h'
            rcases hg : g.call r t with ⟨e | a, t1⟩ <;> rw [hg] at h'
            · cases h'
            have ht1 : t1.2 = some (conf (v r)) := by
              rcases hl g List.mem_cons_self with rfl | hlv
              · rcases hut : unset t.2 with _ | _
                · rw [(h.later r t _ _ hut hg).1]; exact ht
                · exact (h.first r t a t1 hut hg).2
              · have := hlv r t
                rw [hg] at this
                rw [this]; exact ht
            have hl' : LeaveBound con l := fun c hc => hl c (List.mem_cons_of_mem _ hc)
            rcases a with (_ | _) | (_ | _) | b <;> simp only at h'
            · cases h'
            · exact ihl t1 hl' ht1 t' h'
            · cases h'
            · exact ihl t1 hl' ht1 t' h'
            · cases h'
        exact key cs s1 (fun c hc => hcs c (List.mem_cons_of_mem _ hc)) f2 s' hv
    · have hm' : con ∈ cs := (List.mem_cons.1 hm).resolve_left hd
      have hs1 : s1.2 = s.2 := by
        rcases hcs d List.mem_cons_self with rfl | hl
        · exact absurd rfl hd
        · have := hl r s
          rw [hc] at this
          exact this
      have ih' := ih (fun c hc => hcs c (List.mem_cons_of_mem _ hc)) hm' s1 (by rw [hs1]; exact hu)
      rcases a with (_ | _) | (_ | _) | b <;> simp only at hv
      · cases hv
      · exact ih' hv
      · cases hv
      · exact ih' hv
      · cases hv

theorem init_ok {S R : Type} {c : ChainCfg S R} {cs : List (Constraint S R)} {s s1 : S} {ch : Chain S R} (h : Chain.init c cs s = (.ok ch, s1)) :
    validator c.initial cs s = (.ok true, s1) ∧ ch = ⟨cs, none, c.initial⟩ := by
  unfold Chain.init checkInitial at h
  rcases hv : validator c.initial cs s with ⟨e | (_ | _), s2⟩ <;> rw [hv] at h <;> simp only at h
  · simp at h
  · rcases hf : failedConstraints c.initial cs s2 with ⟨e | l, s3⟩ <;> rw [hf] at h <;> simp at h
  · simp only [Prod.mk.injEq, Except.ok.injEq] at h
    obtain ⟨rfl, rfl⟩ := h
    exact ⟨rfl, rfl⟩

theorem beside_keeps {con : Constraint (X × Option (Option K)) R} {v conf ok} (h : Remembers con v conf ok) {cs} (hcs : LeaveBound con cs)
    (hm : con ∈ cs) (c : ChainCfg X R) (b : Option (Option K)) (hb : unset b = false) :
    KeepsInv (c.beside (B := Option (Option K))) cs (fun s => s.2 = b) (fun r => ok (b.getD none) (v r) = true) := by
  refine ⟨fun _ _ h => h, fun _ _ h => h, fun _ _ h => h, fun r s hs => ?_⟩
  obtain ⟨h1, h2⟩ := validator_later h hcs r s (by rw [hs]; exact hb)
  exact ⟨h1.trans hs, fun hx => by rw [← hs]; exact h2 hx hm⟩

/-- a chain that is made while the object has a bound already: all its plans, also the initial one, are judged by that bound -/
theorem later_chain {con : Constraint (X × Option (Option K)) R} {v conf ok} (h : Remembers con v conf ok) {cs} (hcs : LeaveBound con cs)
    (hm : con ∈ cs) (c : ChainCfg X R) {s s1 s2 : X × Option (Option K)} (hb : unset s.2 = false) {ch ch' : Chain (X × Option (Option K)) R}
    (hinit : Chain.init c.beside cs s = (.ok ch, s1)) {fuel body : ℕ} {ys : List R}
    (hl : ch.list c.beside fuel body s1 = some (.ok ys, ch', s2)) :
    s2.2 = s.2 ∧ ok (s.2.getD none) (v c.initial) = true ∧ ∀ y ∈ ys, ok (s.2.getD none) (v y) = true := by
  obtain ⟨hv, rfl⟩ := init_ok hinit
  obtain ⟨k1, k2⟩ := validator_later h hcs c.initial s hb
  have hv' : validator c.initial cs s = (.ok true, s1) := hv
  have hi : ok (s.2.getD none) (v c.initial) = true := k2 (by rw [hv']) hm
  have hk1 : s1.2 = s.2 := by rw [← k1, hv']
  obtain ⟨m1, m2⟩ := collect_keeps (beside_keeps h hcs hm c s.2 hb) (ch := Chain.iter c.beside ⟨cs, none, c.beside.initial⟩) hi hk1 hl
  exact ⟨m1, hi, m2⟩

/-- the first chain that uses the object -/
theorem first_chain {con : Constraint (X × Option (Option K)) R} {v conf ok} (h : Remembers con v conf ok) {cs} (hcs : LeaveBound con cs)
    (hm : con ∈ cs) (c : ChainCfg X R) {s s1 s2 : X × Option (Option K)} (hb : unset s.2 = true) {ch ch' : Chain (X × Option (Option K)) R}
    (hinit : Chain.init c.beside cs s = (.ok ch, s1)) (hz : conf (v c.initial) ≠ some 0) {fuel body : ℕ} {ys : List R}
    (hl : ch.list c.beside fuel body s1 = some (.ok ys, ch', s2)) :
    s2.2 = some (conf (v c.initial)) ∧ ∀ y ∈ ys, ok (conf (v c.initial)) (v y) = true := by
  obtain ⟨hv, rfl⟩ := init_ok hinit
  obtain ⟨k1, k2⟩ := validator_first h hcs hm c.initial s s1 hb hv
  have hu : unset s1.2 = false := by
    rw [k1]
    rcases hcf : conf (v c.initial) with _ | x
    · rfl
    · rw [hcf] at hz
      simpa [unset] using fun hx => hz (by rw [hx])
  obtain ⟨m1, m2⟩ := collect_keeps (beside_keeps h hcs hm c s1.2 hu) (ch := Chain.iter c.beside ⟨cs, none, c.beside.initial⟩)
    (by show ok (s1.2.getD none) (v c.initial) = true; rw [k1]; exact k2) rfl hl
  rw [k1] at m1 m2
  exact ⟨m1, m2⟩

/-- **C89 (partial).** The first chain of a process that uses `SelfConfiguringLowerBound(f, ε)` (`SelfConfiguringUpperBound(f)`): if it can be
constructed, the value of its initial plan is not NaN, and (unless the bound so configured is zero) all its plans are at least that value minus ε (at most
that value).  Missing: every later chain that uses the same object, and the module-level objects of the library are the same in every chain. -/
theorem C89_first_chain_partial (f : R → M X (Option K)) (v : R → Option K) (hf : Computes f v) (name : String)
    (cs : List (Constraint (X × Option (Option K)) R)) (c : ChainCfg X R) (x : X) :
    (∀ (ε : K), LeaveBound (selfLowerCon f ε name) cs → selfLowerCon f ε name ∈ cs →
      ∀ ch s1, Chain.init c.beside cs (x, none) = (.ok ch, s1) → ∃ v0, v c.initial = some v0 ∧
        (v0 ≠ ε → ∀ fuel body ys ch' s2, ch.list c.beside fuel body s1 = some (.ok ys, ch', s2) →
          s2.2 = some (some (v0 - ε)) ∧ ∀ y ∈ ys, ∃ w, v y = some w ∧ v0 - ε ≤ w)) ∧
    (LeaveBound (selfUpperCon f name) cs → selfUpperCon f name ∈ cs →
      ∀ ch s1, Chain.init c.beside cs (x, none) = (.ok ch, s1) → ∃ v0, v c.initial = some v0 ∧
        (v0 ≠ 0 → ∀ fuel body ys ch' s2, ch.list c.beside fuel body s1 = some (.ok ys, ch', s2) →
          s2.2 = some (some v0) ∧ ∀ y ∈ ys, ∃ w, v y = some w ∧ w ≤ v0)) := by
  constructor
  · intro ε hl hm ch s1 hinit
    have hr := selfLower_remembers hf ε name
    have h0 := (validator_first hr hl hm c.initial (x, none) s1 rfl (init_ok hinit).1).2
    rcases hv0 : v c.initial with _ | v0
    · rw [hv0] at h0; simp [nanLe] at h0
    refine ⟨v0, rfl, fun hne fuel body ys ch' s2 hlist => ?_⟩
    obtain ⟨m1, m2⟩ := first_chain hr hl hm c rfl hinit (by rw [hv0]; simpa [sub_eq_zero] using hne) hlist
    rw [hv0] at m1 m2
    refine ⟨m1, fun y hy => ?_⟩
    have := m2 y hy
    rcases hw : v y with _ | w
    · rw [hw] at this; simp [nanLe] at this
    · rw [hw] at this
      exact ⟨w, rfl, by simpa [nanLe] using this⟩
  · intro hl hm ch s1 hinit
    have hr := selfUpper_remembers hf name
    have h0 := (validator_first hr hl hm c.initial (x, none) s1 rfl (init_ok hinit).1).2
    rcases hv0 : v c.initial with _ | v0
    · rw [hv0] at h0; simp [nanLe] at h0
    refine ⟨v0, rfl, fun hne fuel body ys ch' s2 hlist => ?_⟩
    obtain ⟨m1, m2⟩ := first_chain hr hl hm c rfl hinit (by rw [hv0]; simpa using hne) hlist
    rw [hv0] at m1 m2
    refine ⟨m1, fun y hy => ?_⟩
    have := m2 y hy
    rcases hw : v y with _ | w
    · rw [hw] at this; simp [nanLe] at this
    · rw [hw] at this
      exact ⟨w, rfl, by simpa [nanLe] using this⟩

/-- **C89 (partial)**, for the two objects of the library: in the first chain of a process that uses `no_worse_L_minus_1_polsby_popper` the score may get
worse by up to 1/20; in the first chain that uses `no_worse_L1_reciprocal_polsby_popper` it may not get worse at all.  Missing: as above. -/
theorem C89_library_partial {X R : Type} (f : R → M X (Option ℝ)) (v : R → Option ℝ) (hf : Computes f v)
    (cs : List (Constraint (X × Option (Option ℝ)) R)) (c : ChainCfg X R) (x : X) :
    (LeaveBound (noWorseLMinus1 f) cs → noWorseLMinus1 f ∈ cs →
      ∀ ch s1, Chain.init c.beside cs (x, none) = (.ok ch, s1) → ∃ v0, v c.initial = some v0 ∧
        (v0 ≠ 1 / 20 → ∀ fuel body ys ch' s2, ch.list c.beside fuel body s1 = some (.ok ys, ch', s2) →
          ∀ y ∈ ys, ∃ w, v y = some w ∧ v0 - 1 / 20 ≤ w)) ∧
    (LeaveBound (noWorseL1Reciprocal f) cs → noWorseL1Reciprocal f ∈ cs →
      ∀ ch s1, Chain.init c.beside cs (x, none) = (.ok ch, s1) → ∃ v0, v c.initial = some v0 ∧
        (v0 ≠ 0 → ∀ fuel body ys ch' s2, ch.list c.beside fuel body s1 = some (.ok ys, ch', s2) →
          ∀ y ∈ ys, ∃ w, v y = some w ∧ w ≤ v0)) ∧
    (noWorseLMinus1 f).name = some "SelfConfiguringLowerBound(L_minus_1_polsby_popper)" ∧
    (noWorseL1Reciprocal f).name = some "SelfConfiguringUpperBound(L1_reciprocal_polsby_popper)" := by
  refine ⟨fun hl hm ch s1 hi => ?_, fun hl hm ch s1 hi => ?_, rfl, rfl⟩
  · obtain ⟨v0, h0, h1⟩ := (C89_first_chain_partial f v hf _ cs c x).1 (1 / 20) hl hm ch s1 hi
    exact ⟨v0, h0, fun hne fuel body ys ch' s2 h => (h1 hne fuel body ys ch' s2 h).2⟩
  · obtain ⟨v0, h0, h1⟩ := (C89_first_chain_partial f v hf _ cs c x).2 hl hm ch s1 hi
    exact ⟨v0, h0, fun hne fuel body ys ch' s2 h => (h1 hne fuel body ys ch' s2 h).2⟩

/-- a constructor with this constraint alone raises `ValueError` when the stored bound refuses the initial plan -/
theorem init_refused {con : Constraint (X × Option (Option K)) R} {v conf ok} (h : Remembers con v conf ok) (c : ChainCfg X R)
    (s : X × Option (Option K)) (hb : unset s.2 = false) (htot : ∀ s' : X × Option (Option K), ∃ a, (con.call c.initial s').1 = .ok a)
    (hok : ok (s.2.getD none) (v c.initial) = false) : ∃ s', Chain.init c.beside [con] s = (.error .valueError, s') ∧ s'.2 = s.2 := by
  have hcall : ∀ t : X × Option (Option K), t.2 = s.2 → ∃ t', con.call c.initial t = (.ok (.bool false), t') ∧ t'.2 = s.2 := by
    intro t ht
    obtain ⟨a, ha⟩ := htot t
    obtain ⟨l1, l2⟩ := h.later c.initial t _ _ (by rw [ht]; exact hb) rfl
    have := l2 a ha
    rw [ht, hok] at this
    refine ⟨(con.call c.initial t).2, ?_, by rw [l1, ht]⟩
    rw [← this, ← ha]
  obtain ⟨s1, h1, h1'⟩ := hcall s rfl
  obtain ⟨s2, h2, h2'⟩ := hcall s1 h1'
  refine ⟨s2, ?_, h2'⟩
  have hinit : (c.beside (B := Option (Option K))).initial = c.initial := rfl
  unfold Chain.init checkInitial validator
  rw [hinit, h1]
  simp only
  unfold failedConstraints
  rw [h2]
  simp only [failedConstraints, CVal.truthy, Bool.false_eq_true, if_false]
  unfold raiseFailed
  rw [if_pos (by simpa using h.named)]

/-- **C89 fails for every later chain.** Suppose `f` returns the value of every plan, and a first chain of the process has left the bound `b ≠ 0`
in the object.  Then a later chain is judged by `b`, whatever its own initial plan: (1) its constructor raises `ValueError` if that plan is below (above)
`b`; (2) if it runs, every plan it yields is checked against `b` only: the constraint accepts exactly the plans at least (at most) `b`, and leaves the
bound as it is. -/
theorem C89_later_chain_violation (f : R → M X (Option K)) (v : R → Option K) (hf : ∀ r x, (f r x).1 = .ok (v r)) (name : String)
    (c : ChainCfg X R) (x : X) (b : K) (hb : b ≠ 0) (ε : K) :
    (∀ w0, v c.initial = some w0 → w0 < b → ∃ s', Chain.init c.beside [selfLowerCon f ε name] (x, some (some b)) = (.error .valueError, s')) ∧
    (∀ w0, v c.initial = some w0 → b < w0 → ∃ s', Chain.init c.beside [selfUpperCon f name] (x, some (some b)) = (.error .valueError, s')) ∧
    (∀ r, ∃ s', (selfLowerCon f ε name).call r (x, some (some b)) = (.ok (.bool (nanLe (some b) (v r))), s') ∧ s'.2 = some (some b)) ∧
    (∀ r, ∃ s', (selfUpperCon f name).call r (x, some (some b)) = (.ok (.bool (nanLe (v r) (some b))), s') ∧ s'.2 = some (some b)) := by
  have hcomp : Computes f v := fun r y w y' h => by
    have := hf r y
    rw [h] at this
    cases this; rfl
  have hu : unset (some (some b)) = false := by simpa [unset] using hb
  have hfx : ∀ r y, f r y = (.ok (v r), (f r y).2) := fun r y => Prod.ext (hf r y) rfl
  have tl : ∀ r (s : X × Option (Option K)), ∃ a, ((selfLowerCon f ε name).call r s).1 = .ok a := by
    intro r s
    unfold selfLowerCon
    simp only
    split_ifs
    · rw [hfx r s.1]; simp only; rw [hfx r (f r s.1).2]; exact ⟨_, rfl⟩
    · rw [hfx r s.1]; exact ⟨_, rfl⟩
  have tu : ∀ r (s : X × Option (Option K)), ∃ a, ((selfUpperCon f name).call r s).1 = .ok a := by
    intro r s
    unfold selfUpperCon
    simp only
    split_ifs
    · rw [hfx r s.1]; simp only; rw [hfx r (f r s.1).2]; exact ⟨_, rfl⟩
    · rw [hfx r s.1]; exact ⟨_, rfl⟩
  refine ⟨?_, ?_, ?_, ?_⟩
  · intro w0 h0 hlt
    obtain ⟨s', h, -⟩ := init_refused (selfLower_remembers hcomp ε name) c (x, some (some b)) hu (tl _) (by
      rw [h0]; simpa [nanLe] using hlt)
    exact ⟨s', h⟩
  · intro w0 h0 hlt
    obtain ⟨s', h, -⟩ := init_refused (selfUpper_remembers hcomp name) c (x, some (some b)) hu (tu _) (by
      rw [h0]; simpa [nanLe] using hlt)
    exact ⟨s', h⟩
  · intro r
    obtain ⟨a, ha⟩ := tl r (x, some (some b))
    obtain ⟨l1, l2⟩ := (selfLower_remembers hcomp ε name).later r (x, some (some b)) _ _ hu rfl
    exact ⟨_, Prod.ext (by rw [ha, l2 a ha]; rfl) rfl, l1⟩
  · intro r
    obtain ⟨a, ha⟩ := tu r (x, some (some b))
    obtain ⟨l1, l2⟩ := (selfUpper_remembers hcomp name).later r (x, some (some b)) _ _ hu rfl
    exact ⟨_, Prod.ext (by rw [ha, l2 a ha]; rfl) rfl, l1⟩

/-- **C89 (NaN).** If the first plan the object sees has value NaN, the bound is NaN, the constructor raises `ValueError`, and so does the constructor of
every later chain in the process with this constraint alone, whatever its plan. -/
theorem C89_nan_violation (f : R → M X (Option K)) (v : R → Option K) (hf : ∀ r x, (f r x).1 = .ok (v r)) (name : String)
    (c : ChainCfg X R) (x : X) (ε : K) :
    (v c.initial = none → ∃ s', Chain.init c.beside [selfLowerCon f ε name] (x, none) = (.error .valueError, s') ∧ s'.2 = some none) ∧
    ∃ s', Chain.init c.beside [selfLowerCon f ε name] (x, some none) = (.error .valueError, s') ∧ s'.2 = some none := by
  have hcomp : Computes f v := fun r y w y' h => by
    have := hf r y
    rw [h] at this
    cases this; rfl
  have hfx : ∀ r y, f r y = (.ok (v r), (f r y).2) := fun r y => Prod.ext (hf r y) rfl
  have tl : ∀ r (s : X × Option (Option K)), ∃ a, ((selfLowerCon f ε name).call r s).1 = .ok a := by
    intro r s
    unfold selfLowerCon
    simp only
    split_ifs
    · rw [hfx r s.1]; simp only; rw [hfx r (f r s.1).2]; exact ⟨_, rfl⟩
    · rw [hfx r s.1]; exact ⟨_, rfl⟩
  have hrem := selfLower_remembers hcomp ε name
  obtain ⟨con, hcon⟩ : ∃ con, con = selfLowerCon f ε name := ⟨_, rfl⟩
  rw [← hcon] at hrem tl ⊢
  constructor
  · intro h0
    obtain ⟨a, ha⟩ := tl c.initial (x, none)
    obtain ⟨f1, f2⟩ := hrem.first c.initial (x, none) a _ rfl (Prod.ext ha rfl)
    rw [h0] at f1 f2
    have hc1 : con.call c.initial (x, none) =
        (.ok (.bool false), (con.call c.initial (x, none)).2) := Prod.ext (by rw [ha, f1]; rfl) rfl
    obtain ⟨s1, hs⟩ : ∃ s1, s1 = (con.call c.initial (x, none)).2 := ⟨_, rfl⟩
    rw [← hs] at hc1
    have hs1 : s1.2 = some none := by rw [hs]; exact f2
    obtain ⟨a2, ha2⟩ := tl c.initial s1
    obtain ⟨l1, l2⟩ := hrem.later c.initial s1 _ _ (by rw [hs1]; rfl) rfl
    have hc2 : con.call c.initial s1 = (.ok (.bool false), (con.call c.initial s1).2) :=
      Prod.ext (by rw [ha2, l2 a2 ha2, hs1]; rfl) rfl
    refine ⟨(con.call c.initial s1).2, ?_, by rw [l1]; exact hs1⟩
    have hinit : (c.beside (B := Option (Option K))).initial = c.initial := rfl
    unfold Chain.init checkInitial validator
    rw [hinit, hc1]
    simp only
    unfold failedConstraints
    rw [hc2]
    simp only [failedConstraints, CVal.truthy, Bool.false_eq_true, if_false]
    unfold raiseFailed
    rw [if_pos (by simpa using hrem.named)]
  · exact init_refused hrem c (x, some none) rfl (tl _) rfl

end

/-! ### Examples -/

/-- plans are represented by their values; the proposal takes the next value from a list -/
def exTapeCfg (initial : ℚ) (steps : ℤ) : ChainCfg (List ℚ) ℚ where
  proposal _ := fun s => match s with
    | [] => (.error .runtimeError, [])
    | q :: s => (.ok q, s)
  accept _ := fun s => (.ok true, s)
  erase _ := id
  totalSteps := steps
  initial := initial

/-- `SelfConfiguringLowerBound` on these plans, with the default epsilon -/
def exLower : Constraint (List ℚ × Option (Option ℚ)) ℚ := selfLowerCon (fun r x => (.ok (some r), x)) defaultEpsilon "lower"

/-- `list(MarkovChain(..., [exLower], ...))` for the given initial plan, in the given world: the states, or the exception -/
def exRunLower (initial : ℚ) (steps : ℤ) (s : List ℚ × Option (Option ℚ)) : Option (Py (List ℚ)) × (List ℚ × Option (Option ℚ)) :=
  match Chain.init (exTapeCfg initial steps).beside [exLower] s with
  | (.error e, s') => (some (.error e), s')
  | (.ok ch, s') => match ch.list (exTapeCfg initial steps).beside 10 10 s' with
    | none => (none, s')
    | some (r, _, s'') => (some r, s'')

/-- **C89 is violated** by two chains in one process: the first starts at value 1/2 and refuses 2/5.  The second starts at 9/10 and moves to 1/2,
far below 9/10 - 1/20.  A third chain, which starts at 2/5, cannot be constructed.  Alone, the second chain would have refused 1/2, and the third would
have run. -/
theorem C89_two_chains_violation :
    let s1 := (exRunLower (1 / 2) 2 ([2 / 5, 3 / 5], none)).2
    let s2 := (exRunLower (9 / 10) 2 ([1 / 2, 19 / 20], s1.2)).2
    (exRunLower (1 / 2) 2 ([2 / 5, 3 / 5], none)).1 = some (.ok [1 / 2, 3 / 5]) ∧
    (exRunLower (9 / 10) 2 ([1 / 2, 19 / 20], s1.2)).1 = some (.ok [9 / 10, 1 / 2]) ∧
    (exRunLower (2 / 5) 1 ([], s2.2)).1 = some (.error .valueError) ∧
    (exRunLower (9 / 10) 2 ([1 / 2, 19 / 20], none)).1 = some (.ok [9 / 10, 19 / 20]) ∧
    (exRunLower (2 / 5) 1 ([], none)).1 = some (.ok [2 / 5]) := by
  decide +kernel

/-- the hypotheses of `C89_first_chain_partial` can be met: this chain is constructed and runs -/
example : (exRunLower (1 / 2) 3 ([2 / 5, 3 / 5, 9 / 20], none)) = (some (.ok [1 / 2, 3 / 5, 9 / 20]), ([], some (some (9 / 20)))) ∧
    LeaveBound exLower [exLower] := ⟨by decide +kernel, fun _ h => .inl (List.mem_singleton.1 h)⟩

/-- a chain that accepts every plan and stays where it is, with `no_worse_L_minus_1_polsby_popper`: it can be constructed and the hypotheses of
`C89_library_partial` are met -/
example : ∃ f : ℕ → M Unit (Option ℝ), Computes f (fun _ => some 1) ∧ LeaveBound (noWorseLMinus1 f) [noWorseLMinus1 f] ∧
    ∃ ch s1, Chain.init (ChainCfg.beside ⟨fun r => pure r, fun _ => pure true, fun _ s => s, 3, 0⟩) [noWorseLMinus1 f] ((), none) = (.ok ch, s1) := by
  refine ⟨fun _ x => (.ok (some 1), x), fun r y w y' h => by cases h; rfl, fun _ h => .inl (List.mem_singleton.1 h), ?_⟩
  have hcall : ∀ r s, unset s.2 = true → (noWorseLMinus1 (fun (_ : ℕ) (x : Unit) => (.ok (some (1 : ℝ)), x))).call r s =
      (.ok (.bool true), ((), some (some (1 - 1 / 20)))) := by
    intro r s hs
    unfold noWorseLMinus1 selfLowerCon
    simp only [hs, if_true]
    refine Prod.ext ?_ rfl
    show (Except.ok (CVal.bool (decide _)) : Py CVal) = _
    rw [decide_eq_true]
    unfold defaultEpsilon
    norm_num
  unfold Chain.init checkInitial validator
  rw [hcall _ _ rfl]
  exact ⟨_, _, rfl⟩

end GC

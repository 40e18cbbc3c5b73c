import Verif.Spec.Chain
import Mathlib.Data.List.Basic
import Mathlib.Data.List.Chain
import Mathlib.Order.Lattice
import Mathlib.Algebra.Order.Ring.Int

/-!
# C13 – C19: the Markov chain and the validator
-/

set_option linter.unusedSectionVars false
set_option autoImplicit false

namespace GC

variable {S R : Type}

/-! ### C19 -/

/-- **C19 (True).** The validator returns `True` exactly when every constraint, called in turn, returns `True`. -/
theorem C19_validator_true (p : R) (cs : List (Constraint S R)) (s s' : S) :
    validator p cs s = (.ok true, s') ↔ AllPass p cs s s' := by
  induction cs generalizing s with
  | nil =>
    constructor
    · intro h
      simp only [validator, Prod.mk.injEq, true_and] at h
      subst h
      exact .nil s
    · intro h
      cases h
      rfl
  | cons c cs ih =>
    unfold validator
    rcases hc : c.call p s with ⟨e | v, s1⟩
    · simp only
      constructor
      · intro h; simp at h
      · intro h
        cases h with
        | cons h1 h2 h3 => rw [hc] at h1; simp at h1
    · have key : AllPass p (c :: cs) s s' ↔ v.IsBool true ∧ AllPass p cs s1 s' := by
        constructor
        · intro h
          cases h with
          | cons h1 h2 h3 =>
            rw [hc] at h1
            simp only [Prod.mk.injEq, Except.ok.injEq] at h1
            obtain ⟨rfl, rfl⟩ := h1
            exact ⟨h2, h3⟩
        · exact fun h => .cons hc h.1 h.2
      rw [key]
      rcases v with (_ | _) | (_ | _) | b <;> simp [CVal.IsBool, ih]

/-- **C19 (False).** It returns `False` exactly when a first constraint returns `False` after all earlier ones returned
`True`; later constraints are not called. -/
theorem C19_validator_false (p : R) (cs : List (Constraint S R)) (s s' : S) :
    validator p cs s = (.ok false, s') ↔
      ∃ pre c post s1 v, cs = pre ++ c :: post ∧ AllPass p pre s s1 ∧ c.call p s1 = (.ok v, s') ∧ v.IsBool false := by
  induction cs generalizing s with
  | nil =>
    constructor
    · intro h; simp [validator] at h
    · rintro ⟨pre, c, post, s1, v, h, -⟩
      simp at h
  | cons c cs ih =>
    have key : (∃ pre c' post s1 v, c :: cs = pre ++ c' :: post ∧ AllPass p pre s s1 ∧ c'.call p s1 = (.ok v, s') ∧
          v.IsBool false) ↔
        (∃ v, c.call p s = (.ok v, s') ∧ v.IsBool false) ∨
        ∃ v s0, c.call p s = (.ok v, s0) ∧ v.IsBool true ∧ ∃ pre c' post s1 v', cs = pre ++ c' :: post ∧
          AllPass p pre s0 s1 ∧ c'.call p s1 = (.ok v', s') ∧ v'.IsBool false := by
      constructor
      · rintro ⟨pre, c', post, s1, v, h1, h2, h3, h4⟩
        rcases pre with _ | ⟨a, pre⟩
        · simp only [List.nil_append, List.cons.injEq] at h1
          obtain ⟨rfl, rfl⟩ := h1
          cases h2
          exact .inl ⟨v, h3, h4⟩
        · simp only [List.cons_append, List.cons.injEq] at h1
          obtain ⟨rfl, rfl⟩ := h1
          cases h2 with
          | cons g1 g2 g3 => exact .inr ⟨_, _, g1, g2, pre, c', post, s1, v, rfl, g3, h3, h4⟩
      · rintro (⟨v, h1, h2⟩ | ⟨v, s0, h1, h2, pre, c', post, s1, v', rfl, h3, h4, h5⟩)
        · exact ⟨[], c, cs, s, v, rfl, .nil s, h1, h2⟩
        · exact ⟨c :: pre, c', post, s1, v', rfl, .cons h1 h2 h3, h4, h5⟩
    rw [key]
    unfold validator
    rcases hc : c.call p s with ⟨e | v, s1⟩
    · simp
    · rcases v with (_ | _) | (_ | _) | b <;> simp [CVal.IsBool, ih]

/-- **C19 (errors).** It raises exactly when, after constraints that all returned `True`, a constraint raises (the same
exception) or returns a non-boolean (`TypeError`). -/
theorem C19_validator_error (p : R) (cs : List (Constraint S R)) (s s' : S) (e : PyErr) :
    validator p cs s = (.error e, s') ↔
      ∃ pre c post s1, cs = pre ++ c :: post ∧ AllPass p pre s s1 ∧
        (c.call p s1 = (.error e, s') ∨ (∃ b, c.call p s1 = (.ok (.other b), s')) ∧ e = .typeError) := by
  induction cs generalizing s with
  | nil =>
    constructor
    · intro h; simp [validator] at h
    · rintro ⟨pre, c, post, s1, h, -⟩
      simp at h
  | cons c cs ih =>
    have key : (∃ pre c' post s1, c :: cs = pre ++ c' :: post ∧ AllPass p pre s s1 ∧
          (c'.call p s1 = (.error e, s') ∨ (∃ b, c'.call p s1 = (.ok (.other b), s')) ∧ e = .typeError)) ↔
        (c.call p s = (.error e, s') ∨ (∃ b, c.call p s = (.ok (.other b), s')) ∧ e = .typeError) ∨
        ∃ v s0, c.call p s = (.ok v, s0) ∧ v.IsBool true ∧ ∃ pre c' post s1, cs = pre ++ c' :: post ∧
          AllPass p pre s0 s1 ∧
          (c'.call p s1 = (.error e, s') ∨ (∃ b, c'.call p s1 = (.ok (.other b), s')) ∧ e = .typeError) := by
      constructor
      · rintro ⟨pre, c', post, s1, h1, h2, h3⟩
        rcases pre with _ | ⟨a, pre⟩
        · simp only [List.nil_append, List.cons.injEq] at h1
          obtain ⟨rfl, rfl⟩ := h1
          cases h2
          exact .inl h3
        · simp only [List.cons_append, List.cons.injEq] at h1
          obtain ⟨rfl, rfl⟩ := h1
          cases h2 with
          | cons g1 g2 g3 => exact .inr ⟨_, _, g1, g2, pre, c', post, s1, rfl, g3, h3⟩
      · rintro (h | ⟨v, s0, h1, h2, pre, c', post, s1, rfl, h3, h4⟩)
        · exact ⟨[], c, cs, s, rfl, .nil s, h⟩
        · exact ⟨c :: pre, c', post, s1, rfl, .cons h1 h2 h3, h4⟩
    rw [key]
    unfold validator
    rcases hc : c.call p s with ⟨e' | v, s1⟩
    · simp
    · rcases v with (_ | _) | (_ | _) | b <;> simp [CVal.IsBool, ih]
      tauto

/-! ### C18 and C14: one step -/

theorem loop_iff (c : ChainCfg S R) (ch : Chain S R) (k : ℕ) (hk : (k : ℤ) < c.totalSteps) (s : S) (y : R)
    (ch' : Chain S R) (s' : S) :
    (∃ fuel, Chain.loop c ch k fuel s = some (.ok y, ch', s')) ↔
      ∃ s0 q b, Rejections c ch.isValid ch.state s s0 ∧ Proposed c ch.isValid ch.state q b s0 s' ∧
        y = (if b then q else ch.state) ∧ ch' = ⟨ch.isValid, some (k + 1), y⟩ := by
  constructor
  · rintro ⟨fuel, h⟩
    induction fuel generalizing s with
    | zero => simp [Chain.loop] at h
    | succ n ih =>
      unfold Chain.loop at h
      rw [if_pos hk] at h
      rcases hp : c.proposal ch.state s with ⟨e | q, s1⟩ <;> rw [hp] at h <;> simp only at h
      · simp at h
      rcases hv : validator q ch.isValid (c.erase ch.state s1) with ⟨e | (_ | _), s3⟩ <;> rw [hv] at h <;> simp only at h
      · simp at h
      · obtain ⟨s0, q', b, h1, h2⟩ := ih s3 h
        exact ⟨s0, q', b, .step hp hv h1, h2⟩
      · rcases ha : c.accept q s3 with ⟨e | (_ | _), s4⟩ <;> rw [ha] at h <;> simp only at h
        · simp at h
        · simp only [Option.some.injEq, Prod.mk.injEq, Except.ok.injEq] at h
          obtain ⟨rfl, rfl, rfl⟩ := h
          exact ⟨s, q, false, .refl s, ⟨s1, s3, hp, hv, ha⟩, rfl, rfl⟩
        · simp only [Option.some.injEq, Prod.mk.injEq, Except.ok.injEq] at h
          obtain ⟨rfl, rfl, rfl⟩ := h
          exact ⟨s, q, true, .refl s, ⟨s1, s3, hp, hv, ha⟩, rfl, rfl⟩
  · rintro ⟨s0, q, b, h1, ⟨s1, s3, hp, hv, ha⟩, rfl, rfl⟩
    induction h1 with
    | refl s =>
      refine ⟨1, ?_⟩
      unfold Chain.loop
      rw [if_pos hk, hp]; simp only; rw [hv]; simp only; rw [ha]
      cases b <;> rfl
    | step g1 g2 g3 ih =>
      obtain ⟨fuel, hf⟩ := ih hp
      refine ⟨fuel + 1, ?_⟩
      unfold Chain.loop
      rw [if_pos hk, g1]; simp only; rw [g2]; exact hf

/-- **C18.** While the chain has steps left, `next()` returns `y` exactly when some number of proposals from the current
state was refused by the constraints, then one proposal `q` passed them, and `y` is `q` or the unchanged state depending on
the acceptance function.  Only the returning call is counted. -/
theorem C18_next_iff (c : ChainCfg S R) (ch : Chain S R) (k : ℕ) (hc : ch.counter = some (k + 1))
    (hk : ((k + 1 : ℕ) : ℤ) < c.totalSteps) (s : S) (y : R) (ch' : Chain S R) (s' : S) :
    (∃ fuel, ch.next c fuel s = some (.ok y, ch', s')) ↔
      ∃ s0 q b, Rejections c ch.isValid ch.state s s0 ∧ Proposed c ch.isValid ch.state q b s0 s' ∧
        y = (if b then q else ch.state) ∧ ch' = ⟨ch.isValid, some (k + 2), y⟩ := by
  unfold Chain.next
  rw [hc]
  exact loop_iff c ch (k + 1) hk s y ch' s'

/-- **C18 (blocking).** A step never returns exactly when there is an infinite sequence of proposals from the current
state, all refused by the constraints. -/
theorem C18_blocks_iff (c : ChainCfg S R) (ch : Chain S R) (k : ℕ) (hc : ch.counter = some (k + 1))
    (hk : ((k + 1 : ℕ) : ℤ) < c.totalSteps) (s : S) :
    (∀ fuel, ch.next c fuel s = none) ↔
      ∃ (w : ℕ → S) (q : ℕ → R) (w1 : ℕ → S), w 0 = s ∧ ∀ i, c.proposal ch.state (w i) = (.ok (q i), w1 i) ∧
        validator (q i) ch.isValid (c.erase ch.state (w1 i)) = (.ok false, w (i + 1)) := by
  have hn : ∀ fuel s, ch.next c fuel s = Chain.loop c ch (k + 1) fuel s := by
    intro fuel s; unfold Chain.next; rw [hc]
  simp only [hn]
  constructor
  · intro h
    -- one step: the loop does not finish, so the first proposal is refused and the loop goes on
    have step : ∀ s, (∀ fuel, Chain.loop c ch (k + 1) fuel s = none) → ∃ q s1 s3, c.proposal ch.state s = (.ok q, s1) ∧
        validator q ch.isValid (c.erase ch.state s1) = (.ok false, s3) ∧ ∀ fuel, Chain.loop c ch (k + 1) fuel s3 = none := by
      intro s h
      have h1 := h 1
      unfold Chain.loop at h1
      rw [if_pos hk] at h1
      rcases hp : c.proposal ch.state s with ⟨e | q, s1⟩ <;> rw [hp] at h1 <;> simp only at h1
      · simp at h1
      rcases hv : validator q ch.isValid (c.erase ch.state s1) with ⟨e | (_ | _), s3⟩ <;> rw [hv] at h1 <;> simp only at h1
      · simp at h1
      · refine ⟨q, s1, s3, rfl, hv, ?_⟩
        intro fuel
        have h2 := h (fuel + 1)
        unfold Chain.loop at h2
        rw [if_pos hk, hp] at h2
        simp only at h2
        rw [hv] at h2
        exact h2
      · rcases ha : c.accept q s3 with ⟨e | (_ | _), s4⟩ <;> rw [ha] at h1 <;> simp at h1
    haveI : Nonempty R := ⟨ch.state⟩
    haveI : Nonempty S := ⟨s⟩
    choose! fq f1 f3 g1 g2 g3 using step
    refine ⟨fun i => f3^[i] s, fun i => fq (f3^[i] s), fun i => f1 (f3^[i] s), rfl, ?_⟩
    have hinf : ∀ i, ∀ fuel, Chain.loop c ch (k + 1) fuel (f3^[i] s) = none := by
      intro i
      induction i with
      | zero => exact h
      | succ n ih => rw [Function.iterate_succ_apply']; exact g3 _ ih
    intro i
    refine ⟨g1 _ (hinf i), ?_⟩
    beta_reduce
    rw [Function.iterate_succ_apply']
    exact g2 _ (hinf i)
  · rintro ⟨w, q, w1, rfl, h⟩ fuel
    have : ∀ i, Chain.loop c ch (k + 1) fuel (w i) = none := by
      induction fuel with
      | zero => intro i; rfl
      | succ n ih =>
        intro i
        unfold Chain.loop
        rw [if_pos hk, (h i).1]
        simp only
        rw [(h i).2]
        exact ih (i + 1)
    exact this 0

/-! ### C13: how many states -/

/-- the number of states a chain yields -/
def yields (c : ChainCfg S R) : ℕ := max 1 c.totalSteps.toNat

/-- number of calls that returned a state -/
def okCount (rs : List (Py R)) : ℕ := (rs.filter (fun r => r.isOk)).length

theorem validator_noStop {p : R} {cs : List (Constraint S R)}
    (h : ∀ con ∈ cs, ∀ r s s', con.call r s ≠ (.error .stopIteration, s')) (s s' : S) :
    validator p cs s ≠ (.error .stopIteration, s') := by
  intro hv
  obtain ⟨pre, con, post, s1, rfl, -, h' | ⟨-, h'⟩⟩ := (C19_validator_error p cs s s' _).1 hv
  · exact h con (by simp) _ _ _ h'
  · cases h'

theorem loop_result {c : ChainCfg S R} {ch : Chain S R} {k fuel : ℕ} {s s' : S} {r : Py R} {ch' : Chain S R}
    (h : Chain.loop c ch k fuel s = some (r, ch', s')) :
    ch'.isValid = ch.isValid ∧
    ((∃ y, r = .ok y ∧ ch'.counter = some (k + 1) ∧ ch'.state = y ∧ (k : ℤ) < c.totalSteps) ∨
     (∃ e, r = .error e ∧ ch' = ch ∧ ((k : ℤ) < c.totalSteps → NoStop c ch.isValid → e ≠ .stopIteration) ∧
      (c.totalSteps ≤ k → e = .stopIteration))) := by
  induction fuel generalizing s with
  | zero => simp [Chain.loop] at h
  | succ n ih =>
    unfold Chain.loop at h
    split at h
    · rename_i hk
      rcases hp : c.proposal ch.state s with ⟨e | q, s1⟩ <;> rw [hp] at h <;> simp only at h
      · simp only [Option.some.injEq, Prod.mk.injEq] at h
        obtain ⟨rfl, rfl, rfl⟩ := h
        exact ⟨rfl, .inr ⟨e, rfl, rfl, fun _ hns he => hns.proposal _ _ _ (he ▸ hp), fun h' => absurd h' (not_le.2 hk)⟩⟩
      rcases hv : validator q ch.isValid (c.erase ch.state s1) with ⟨e | (_ | _), s3⟩ <;> rw [hv] at h <;> simp only at h
      · simp only [Option.some.injEq, Prod.mk.injEq] at h
        obtain ⟨rfl, rfl, rfl⟩ := h
        exact ⟨rfl, .inr ⟨e, rfl, rfl, fun _ hns he => validator_noStop hns.constraint _ _ (he ▸ hv),
          fun h' => absurd h' (not_le.2 hk)⟩⟩
      · exact ih h
      · rcases ha : c.accept q s3 with ⟨e | (_ | _), s4⟩ <;> rw [ha] at h <;>
          simp only [Option.some.injEq, Prod.mk.injEq] at h <;> obtain ⟨rfl, rfl, rfl⟩ := h
        · exact ⟨rfl, .inr ⟨e, rfl, rfl, fun _ hns he => hns.accept _ _ _ (he ▸ ha), fun h' => absurd h' (not_le.2 hk)⟩⟩
        · exact ⟨rfl, .inl ⟨_, rfl, rfl, rfl, hk⟩⟩
        · exact ⟨rfl, .inl ⟨_, rfl, rfl, rfl, hk⟩⟩
    · rename_i hk
      simp only [Option.some.injEq, Prod.mk.injEq] at h
      obtain ⟨rfl, rfl, rfl⟩ := h
      exact ⟨rfl, .inr ⟨_, rfl, rfl, fun h' => absurd h' hk, fun _ => rfl⟩⟩

/-- What one call of `next` does to the counter. -/
theorem next_result {c : ChainCfg S R} {ch : Chain S R} {k fuel : ℕ} {s s' : S} {r : Py R} {ch' : Chain S R}
    (hc : ch.counter = some k) (h : ch.next c fuel s = some (r, ch', s')) :
    ch'.isValid = ch.isValid ∧
    ((∃ y, r = .ok y ∧ ch'.counter = some (k + 1) ∧ ch'.state = y ∧ k < yields c ∧ (k = 0 → y = ch.state)) ∨
     (∃ e, r = .error e ∧ ch' = ch ∧ (k < yields c → NoStop c ch.isValid → e ≠ .stopIteration) ∧
      (yields c ≤ k → e = .stopIteration))) := by
  unfold Chain.next at h
  rw [hc] at h
  rcases k with _ | k
  · simp only [Option.some.injEq, Prod.mk.injEq] at h
    obtain ⟨rfl, rfl, rfl⟩ := h
    exact ⟨rfl, .inl ⟨_, rfl, rfl, rfl, by unfold yields; omega, fun _ => rfl⟩⟩
  · obtain ⟨h1, h2⟩ := loop_result h
    refine ⟨h1, ?_⟩
    rcases h2 with ⟨y, rfl, h3, h4, h5⟩ | ⟨e, rfl, h3, h4, h5⟩
    · exact .inl ⟨y, rfl, h3, h4, by unfold yields; omega, by omega⟩
    · refine .inr ⟨e, rfl, h3, fun h' => h4 ?_, fun h' => h5 ?_⟩
      · unfold yields at h'; omega
      · unfold yields at h'; omega

theorem calls_result {c : ChainCfg S R} {fuel n : ℕ} {ch : Chain S R} {k : ℕ} {s s' : S} {rs : List (Py R)}
    {ch' : Chain S R} (hc : ch.counter = some k) (hns : NoStop c ch.isValid)
    (h : Chain.calls c fuel n ch s = some (rs, ch', s')) :
    rs.length = n ∧ ch'.counter = some (k + okCount rs) ∧ (k ≤ yields c → k + okCount rs ≤ yields c) ∧
    (∀ i (hi : i < rs.length), rs[i] = .error .stopIteration ↔ yields c ≤ k + okCount (rs.take i)) ∧
    ch'.isValid = ch.isValid := by
  induction n generalizing ch k s rs with
  | zero =>
    simp only [Chain.calls, Option.some.injEq, Prod.mk.injEq] at h
    obtain ⟨rfl, rfl, rfl⟩ := h
    simp [okCount, hc]
  | succ n ih =>
    unfold Chain.calls at h
    rcases hn : ch.next c fuel s with _ | ⟨r, ch1, s1⟩ <;> rw [hn] at h <;> simp only at h
    · cases h
    rcases hr : Chain.calls c fuel n ch1 s1 with _ | ⟨rs1, ch2, s2⟩ <;> rw [hr] at h <;> simp only at h
    · cases h
    simp only [Option.some.injEq, Prod.mk.injEq] at h
    obtain ⟨rfl, rfl, rfl⟩ := h
    obtain ⟨hv, h1 | h1⟩ := next_result hc hn
    · obtain ⟨y, rfl, h2, h3, h4, -⟩ := h1
      obtain ⟨g1, g2, g3, g4, g5⟩ := ih h2 (hv ▸ hns) hr
      have hok : ∀ l : List (Py R), okCount (Except.ok y :: l) = okCount l + 1 := fun l => by
        simp [okCount, Except.isOk, Except.toBool]
      refine ⟨by simp [g1], by rw [g2, hok]; congr 1; omega, fun _ => by rw [hok]; have := g3 h4; omega, ?_, by rw [g5, hv]⟩
      intro i hi
      rcases i with _ | i
      · simp [okCount]; omega
      · simp only [List.getElem_cons_succ, List.take_succ_cons]
        rw [g4 i (by simpa using hi), hok]
        omega
    · obtain ⟨e, rfl, h2, h3, h4⟩ := h1
      subst h2
      obtain ⟨g1, g2, g3, g4, g5⟩ := ih hc hns hr
      have hok : ∀ l : List (Py R), okCount (Except.error e :: l) = okCount l := fun l => by
        simp [okCount, Except.isOk, Except.toBool]
      refine ⟨by simp [g1], by rw [g2, hok], fun h => by rw [hok]; exact g3 h, ?_, g5⟩
      intro i hi
      rcases i with _ | i
      · simp only [List.getElem_cons_zero, List.take_zero, Except.error.injEq]
        have : okCount ([] : List (Py R)) = 0 := rfl
        rw [this, Nat.add_zero]
        constructor
        · intro he
          by_contra hlt
          exact h3 (by omega) hns he
        · exact h4
      · simp only [List.getElem_cons_succ, List.take_succ_cons]
        rw [g4 i (by simpa using hi), hok]

/-- **C13 (calls).** After `iter()`, among any number of `next()` calls (exceptions being caught by the caller) at most
`max(1, total_steps)` return a state, a call raises `StopIteration` exactly when that many states were already returned,
so it is raised forever after. -/
theorem C13_next_calls (c : ChainCfg S R) (ch : Chain S R) (hns : NoStop c ch.isValid) (fuel n : ℕ) (s s' : S)
    (rs : List (Py R)) (ch' : Chain S R) (h : Chain.calls c fuel n (ch.iter c) s = some (rs, ch', s')) :
    rs.length = n ∧ okCount rs ≤ max 1 c.totalSteps.toNat ∧
    ∀ i (hi : i < rs.length), rs[i] = .error .stopIteration ↔ okCount (rs.take i) = max 1 c.totalSteps.toNat := by
  have hc : (ch.iter c).counter = some 0 := rfl
  obtain ⟨h1, h2, h3, h4, h5⟩ := calls_result hc hns h
  simp only [Nat.zero_add] at h3 h4
  refine ⟨h1, h3 (Nat.zero_le _), ?_⟩
  intro i hi
  rw [h4 i hi]
  have : okCount (rs.take i) ≤ okCount rs :=
    List.Sublist.length_le ((List.take_sublist i rs).filter _)
  have := h3 (Nat.zero_le _)
  unfold yields at *
  omega

theorem collect_result {c : ChainCfg S R} {fuel n : ℕ} {ch : Chain S R} {k : ℕ} {s s' : S} {ys : List R}
    {ch' : Chain S R} (hc : ch.counter = some k) (hk : k ≤ yields c) (hns : NoStop c ch.isValid)
    (h : Chain.collect c fuel n ch s = some (.ok ys, ch', s')) :
    ys.length = yields c - k ∧ (k = 0 → ys.head? = some ch.state) ∧ ch'.counter = some (yields c) ∧
      ch'.isValid = ch.isValid := by
  induction n generalizing ch k s ys with
  | zero => simp [Chain.collect] at h
  | succ n ih =>
    unfold Chain.collect at h
    rcases hn : ch.next c fuel s with _ | ⟨r, ch1, s1⟩ <;> rw [hn] at h <;> simp only at h
    · cases h
    obtain ⟨hv, h1 | h1⟩ := next_result hc hn
    · obtain ⟨y, rfl, h2, h3, h4, h5⟩ := h1
      simp only at h
      rcases hr : Chain.collect c fuel n ch1 s1 with _ | ⟨_ | ys1, ch2, s2⟩ <;> rw [hr] at h <;> simp only at h
      · cases h
      · simp at h
      simp only [Option.some.injEq, Prod.mk.injEq, Except.ok.injEq] at h
      obtain ⟨rfl, rfl, rfl⟩ := h
      obtain ⟨g1, g2, g3, g4⟩ := ih h2 h4 (hv ▸ hns) hr
      refine ⟨by simp only [List.length_cons, g1]; omega, fun h0 => by simp [h5 h0], g3, by rw [g4, hv]⟩
    · obtain ⟨e, rfl, h2, h3, h4⟩ := h1
      subst h2
      have he : e = .stopIteration := by
        by_contra hne
        rcases e <;> simp at h hne
      subst he
      simp only [Option.some.injEq, Prod.mk.injEq, Except.ok.injEq] at h
      obtain ⟨rfl, rfl, rfl⟩ := h
      have : ¬ k < yields c := fun hlt => h3 hlt hns rfl
      have hk' : k = yields c := by omega
      refine ⟨by simp [hk'], ?_, by rw [hc, hk'], rfl⟩
      intro h0
      exfalso
      unfold yields at hk'
      omega

/-- **C13.** If `list(chain)` returns, it has exactly `max(1, total_steps)` elements (so exactly `len(chain)` when
`total_steps ≥ 1`), the first is the initial state, and every later `next()` raises `StopIteration` and changes nothing. -/
theorem C13_list_length (c : ChainCfg S R) (ch : Chain S R) (hns : NoStop c ch.isValid) (fuel body : ℕ) (s s' : S)
    (ys : List R) (ch' : Chain S R) (h : ch.list c fuel body s = some (.ok ys, ch', s')) :
    ys.length = max 1 c.totalSteps.toNat ∧ ys.head? = some c.initial ∧
    (∀ n : ℕ, Chain.len c = .ok n → 1 ≤ n → ys.length = n) ∧
    ∀ fuel' s'', ch'.next c (fuel' + 1) s'' = some (.error .stopIteration, ch', s'') := by
  obtain ⟨h1, h2, h3, h4⟩ := collect_result (k := 0) (ch := ch.iter c) rfl (Nat.zero_le _) hns h
  refine ⟨h1, h2 rfl, ?_, ?_⟩
  · intro n hn h1n
    unfold Chain.len at hn
    split at hn
    · cases hn
    · simp only [Except.ok.injEq] at hn
      rw [h1]
      unfold yields
      omega
  · intro fuel' s''
    unfold Chain.next
    have hy : yields c = (yields c - 1) + 1 := by unfold yields; omega
    rw [h3, hy]
    simp only
    unfold Chain.loop
    rw [if_neg]
    rw [← hy]
    unfold yields
    omega

/-- **C13 (termination).** If no callable raises and within `fuel` proposals there is always a valid one, `list(chain)`
returns. -/
theorem C13_list_returns (c : ChainCfg S R) (ch : Chain S R) (fuel : ℕ)
    (hnext : ∀ (st : R) (k : ℕ) (s : S), (k : ℤ) < c.totalSteps → ∃ y ch' s', Chain.loop c ⟨ch.isValid, some k, st⟩ k fuel s = some (.ok y, ch', s'))
    (hf : 0 < fuel) (body : ℕ) (hb : max 1 c.totalSteps.toNat < body) (s : S) :
    ∃ ys ch' s', ch.list c fuel body s = some (.ok ys, ch', s') := by
  have key : ∀ n st k s, yields c - k < n → k ≤ yields c →
      ∃ ys ch' s', Chain.collect c fuel n ⟨ch.isValid, some k, st⟩ s = some (.ok ys, ch', s') := by
    intro n
    induction n with
    | zero => intro st k s h; omega
    | succ n ih =>
      intro st k s h hk
      unfold Chain.collect
      by_cases hlt : k < yields c
      · have : ∃ y ch' s', Chain.next c ⟨ch.isValid, some k, st⟩ fuel s = some (.ok y, ch', s') := by
          unfold Chain.next
          simp only
          rcases k with _ | k
          · exact ⟨_, _, _, rfl⟩
          · exact hnext st (k + 1) s (by unfold yields at hlt; omega)
        obtain ⟨y, ch1, s1, h1⟩ := this
        obtain ⟨hv, h2 | h2⟩ := next_result (k := k) (by rfl) h1
        · obtain ⟨y', hy', h3, h4, -⟩ := h2
          rw [h1]
          simp only
          have hch : ch1 = ⟨ch.isValid, some (k + 1), ch1.state⟩ := by
            obtain ⟨a, b, d⟩ := ch1
            simp only at hv h3
            rw [hv, h3]
          rw [hch]
          obtain ⟨ys, ch2, s2, h5⟩ := ih ch1.state (k + 1) s1 (by omega) (by omega)
          rw [h5]
          exact ⟨_, _, _, rfl⟩
        · obtain ⟨e, he, -⟩ := h2
          cases he
      · have hk' : k = yields c := by omega
        have hpos : 0 < yields c := by unfold yields; omega
        have : Chain.next c ⟨ch.isValid, some k, st⟩ fuel s = some (.error .stopIteration, ⟨ch.isValid, some k, st⟩, s) := by
          unfold Chain.next
          simp only
          rcases k with _ | k
          · omega
          · simp only
            obtain ⟨f, rfl⟩ := Nat.exists_eq_add_of_lt hf
            simp only [Nat.zero_add]
            unfold Chain.loop
            rw [if_neg]
            unfold yields at hk'
            omega
        rw [this]
        exact ⟨_, _, _, rfl⟩
  exact key body c.initial 0 s (by unfold yields; omega) (Nat.zero_le _)

/-- **C13 fails for `total_steps = 0`** (as stated in the property): `len(chain)` is 0 but one state is yielded. -/
theorem C13_zero_steps (c : ChainCfg S R) (h0 : c.totalSteps = 0) (ch : Chain S R) (fuel body : ℕ) (s : S) :
    Chain.len c = .ok 0 ∧ ∃ ch', ch.list c (fuel + 1) (body + 2) s = some (.ok [c.initial], ch', s) := by
  refine ⟨by unfold Chain.len; rw [h0]; rfl, ⟨ch.isValid, some 1, c.initial⟩, ?_⟩
  unfold Chain.list Chain.collect Chain.next Chain.iter
  simp only
  unfold Chain.collect Chain.next
  simp only
  unfold Chain.loop
  rw [if_neg (by rw [h0]; decide)]

/-- **C17.** `iter()` makes every chain object start over: whatever was run before, iterating again behaves exactly like
iterating a freshly constructed chain with the same constraints from the present world. -/
theorem C17_iter_restarts (c : ChainCfg S R) (ch : Chain S R) (fuel body : ℕ) (s : S) :
    (ch.iter c).state = c.initial ∧ (ch.iter c).counter = some 0 ∧
    ch.list c fuel body s = Chain.list c fuel body ⟨ch.isValid, none, c.initial⟩ s ∧
    ∃ ch', (ch.iter c).next c fuel s = some (.ok c.initial, ch', s) := ⟨rfl, rfl, rfl, _, rfl⟩

/-! ### C14 -/

/-- `y'` may follow `y` in a run: it is `y`, or it was proposed from `y`, passed the constraints and was accepted. -/
def Follows (c : ChainCfg S R) (cs : List (Constraint S R)) (y y' : R) : Prop :=
  y' = y ∨ ∃ s s', Proposed c cs y y' true s s'

theorem loop_follows {c : ChainCfg S R} {ch : Chain S R} {k fuel : ℕ} {s s' : S} {y : R} {ch' : Chain S R}
    (h : Chain.loop c ch k fuel s = some (.ok y, ch', s')) :
    Follows c ch.isValid ch.state y ∧ ch'.state = y := by
  have hk : (k : ℤ) < c.totalSteps := by
    obtain ⟨-, ⟨y, -, -, -, h4⟩ | ⟨e, he, -⟩⟩ := loop_result h
    · exact h4
    · cases he
  obtain ⟨s0, q, b, -, h2, h3, h4⟩ := (loop_iff c ch k hk s y ch' s').1 ⟨fuel, h⟩
  refine ⟨?_, by rw [h4]⟩
  cases b
  · exact .inl h3
  · simp only [if_true] at h3
    subst h3
    exact .inr ⟨_, _, h2⟩

theorem collect_follows {c : ChainCfg S R} {fuel n : ℕ} {ch : Chain S R} {k : ℕ} {s s' : S} {ys : List R}
    {ch' : Chain S R} (hc : ch.counter = some (k + 1)) (h : Chain.collect c fuel n ch s = some (.ok ys, ch', s')) :
    List.IsChain (Follows c ch.isValid) (ch.state :: ys) := by
  induction n generalizing ch k s ys with
  | zero => simp [Chain.collect] at h
  | succ n ih =>
    unfold Chain.collect at h
    rcases hn : ch.next c fuel s with _ | ⟨r, ch1, s1⟩ <;> rw [hn] at h <;> simp only at h
    · cases h
    obtain ⟨hv, h1 | h1⟩ := next_result hc hn
    · obtain ⟨y, rfl, h2, h3, h4, h5⟩ := h1
      simp only at h
      rcases hr : Chain.collect c fuel n ch1 s1 with _ | ⟨_ | ys1, ch2, s2⟩ <;> rw [hr] at h <;> simp only at h
      · cases h
      · simp at h
      simp only [Option.some.injEq, Prod.mk.injEq, Except.ok.injEq] at h
      obtain ⟨rfl, rfl, rfl⟩ := h
      have := ih h2 hr
      rw [hv, h3] at this
      unfold Chain.next at hn
      rw [hc] at hn
      exact .cons_cons (loop_follows hn).1 this
    · obtain ⟨e, rfl, -⟩ := h1
      have he : e = .stopIteration := by
        by_contra hne
        rcases e <;> simp at h hne
      subst he
      simp only [Option.some.injEq, Prod.mk.injEq, Except.ok.injEq] at h
      obtain ⟨rfl, -, -⟩ := h
      exact List.isChain_singleton _

/-- **C14 (moves).** In `list(chain)`, each state after the first is the previous one, or was proposed from the previous
one, passed all constraints and was accepted. -/
theorem C14_moves (c : ChainCfg S R) (ch : Chain S R) (fuel body : ℕ) (s s' : S)
    (ys : List R) (ch' : Chain S R) (h : ch.list c fuel body s = some (.ok ys, ch', s')) :
    List.IsChain (Follows c ch.isValid) ys := by
  unfold Chain.list at h
  rcases body with _ | body
  · simp [Chain.collect] at h
  unfold Chain.collect at h
  have hn : (ch.iter c).next c fuel s = some (.ok c.initial, ⟨ch.isValid, some 1, c.initial⟩, s) := rfl
  rw [hn] at h
  simp only at h
  rcases hr : Chain.collect c fuel body ⟨ch.isValid, some 1, c.initial⟩ s with _ | ⟨_ | ys1, ch2, s2⟩ <;> rw [hr] at h <;>
    simp only at h
  · cases h
  · simp at h
  simp only [Option.some.injEq, Prod.mk.injEq, Except.ok.injEq] at h
  obtain ⟨rfl, rfl, rfl⟩ := h
  exact collect_follows (k := 0) rfl hr

theorem allPass_mem {p : R} {cs : List (Constraint S R)} {s s' : S} (h : AllPass p cs s s') (con : Constraint S R)
    (hc : con ∈ cs) : ∃ s1 s2 v, con.call p s1 = (.ok v, s2) ∧ v.IsBool true := by
  induction h with
  | nil => simp at hc
  | cons h1 h2 h3 ih =>
    rcases List.mem_cons.1 hc with rfl | hc
    · exact ⟨_, _, _, h1, h2⟩
    · exact ih hc

/-- **C14 (validity).** Every state in `list(MarkovChain(...))` made every constraint return `True` when it was checked. -/
theorem C14_states_valid (c : ChainCfg S R) (cs : List (Constraint S R)) (ch : Chain S R) (s0 s1 : S)
    (hinit : Chain.init c cs s0 = (.ok ch, s1)) (fuel body : ℕ) (s s' : S)
    (ys : List R) (ch' : Chain S R) (h : ch.list c fuel body s = some (.ok ys, ch', s')) :
    ∀ y ∈ ys, (∃ w w', AllPass y cs w w') ∧
      ∀ con ∈ cs, ∃ w w' v, con.call y w = (.ok v, w') ∧ v.IsBool true := by
  have hchk : validator c.initial cs s0 = (.ok true, s1) ∧ ch = ⟨cs, none, c.initial⟩ := by
    unfold Chain.init checkInitial at hinit
    rcases hv : validator c.initial cs s0 with ⟨e | (_ | _), s2⟩ <;> rw [hv] at hinit <;> simp only at hinit
    · simp at hinit
    · rcases hf : failedConstraints c.initial cs s2 with ⟨e | l, s3⟩ <;> rw [hf] at hinit <;> simp at hinit
    · simp only [Prod.mk.injEq, Except.ok.injEq] at hinit
      obtain ⟨rfl, rfl⟩ := hinit
      exact ⟨rfl, rfl⟩
  have hmoves := C14_moves c ch fuel body s s' ys ch' h
  rw [hchk.2] at hmoves
  have hhead : ∀ y, ys.head? = some y → y = c.initial := by
    intro y hy
    unfold Chain.list at h
    rcases body with _ | body
    · simp [Chain.collect] at h
    unfold Chain.collect at h
    have hn : (ch.iter c).next c fuel s = some (.ok c.initial, ⟨ch.isValid, some 1, c.initial⟩, s) := rfl
    rw [hn] at h
    simp only at h
    rcases hr : Chain.collect c fuel body ⟨ch.isValid, some 1, c.initial⟩ s with _ | ⟨_ | ys1, ch2, s2⟩ <;> rw [hr] at h <;>
      simp only at h
    · cases h
    · simp at h
    simp only [Option.some.injEq, Prod.mk.injEq, Except.ok.injEq] at h
    obtain ⟨rfl, -⟩ := h
    simpa using hy.symm
  have hv0 : ∃ w w', AllPass c.initial cs w w' := ⟨_, _, (C19_validator_true _ _ _ _).1 hchk.1⟩
  have key : ∀ l : List R, List.IsChain (Follows c cs) l → (∀ y, l.head? = some y → ∃ w w', AllPass y cs w w') →
      ∀ y ∈ l, ∃ w w', AllPass y cs w w' := by
    intro l hl
    induction hl with
    | nil => intro _ y hy; simp at hy
    | singleton a => intro h y hy; simp only [List.mem_singleton] at hy; subst hy; exact h _ rfl
    | @cons_cons a b l hab hl ih =>
      intro h y hy
      have ha := h a rfl
      have hb : ∃ w w', AllPass b cs w w' := by
        rcases hab with rfl | ⟨w, w', ⟨w1, w3, -, h2, -⟩⟩
        · exact ha
        · exact ⟨_, _, (C19_validator_true _ _ _ _).1 h2⟩
      rcases List.mem_cons.1 hy with rfl | hy
      · exact ha
      · exact ih (fun z hz => by simp only [List.head?_cons, Option.some.injEq] at hz; subst hz; exact hb) y hy
  intro y hy
  have := key ys hmoves (fun y hy => by rw [hhead y hy]; exact hv0) y hy
  refine ⟨this, ?_⟩
  obtain ⟨w, w', hp⟩ := this
  exact fun con hcon => allPass_mem hp con hcon

/-! ### C15 -/

/-- A constraint that is a total boolean function of the partition and has a name, as all constraints of the library are. -/
structure Constraint.Plain (con : Constraint S R) (f : R → Bool) : Prop where
  call : ∀ r s, ∃ s', con.call r s = (.ok (.bool (f r)), s') ∨ con.call r s = (.ok (.numpyBool (f r)), s')
  named : con.name.isSome

theorem failed_plain {p : R} {cs : List (Constraint S R)} {f : Constraint S R → R → Bool}
    (hf : ∀ con ∈ cs, con.Plain (f con)) (s : S) :
    ∃ s' l, failedConstraints p cs s = (.ok l, s') ∧ ∀ con ∈ l, con.name.isSome := by
  induction cs generalizing s with
  | nil => exact ⟨s, [], rfl, by simp⟩
  | cons c cs ih =>
    have hc := hf c List.mem_cons_self
    obtain ⟨s', hs⟩ := hc.call p s
    obtain ⟨s'', l, h1, h2⟩ := ih (fun con h => hf con (List.mem_cons_of_mem _ h)) s'
    refine ⟨s'', if f c p then l else c :: l, ?_, ?_⟩
    · unfold failedConstraints
      rcases hs with hs | hs <;> rw [hs] <;> simp only <;> rw [h1] <;> rfl
    · intro con hcon
      split at hcon
      · exact h2 con hcon
      · rcases List.mem_cons.1 hcon with rfl | h
        · exact hc.named
        · exact h2 con h

theorem validator_plain {p : R} {cs : List (Constraint S R)} {f : Constraint S R → R → Bool}
    (hf : ∀ con ∈ cs, con.Plain (f con)) (s : S) :
    ∃ s', validator p cs s = (.ok (cs.all (fun con => f con p)), s') := by
  induction cs generalizing s with
  | nil => exact ⟨s, rfl⟩
  | cons c cs ih =>
    obtain ⟨s', hs⟩ := (hf c List.mem_cons_self).call p s
    obtain ⟨s'', h⟩ := ih (fun con h => hf con (List.mem_cons_of_mem _ h)) s'
    unfold validator
    rcases hb : f c p with _ | _
    · refine ⟨s', ?_⟩
      rw [hb] at hs
      rcases hs with hs | hs <;> rw [hs] <;> simp [hb]
    · refine ⟨s'', ?_⟩
      rw [hb] at hs
      rcases hs with hs | hs <;> rw [hs] <;> simp [hb, h]

theorem checkInitial_plain {p : R} {cs : List (Constraint S R)} {f : Constraint S R → R → Bool}
    (hf : ∀ con ∈ cs, con.Plain (f con)) (s : S) :
    ∃ s', checkInitial p cs s = (if ∀ con ∈ cs, f con p = true then .ok () else .error .valueError, s') := by
  obtain ⟨s1, h1⟩ := validator_plain (p := p) hf s
  obtain ⟨s2, l, h2, h3⟩ := failed_plain (p := p) hf s1
  unfold checkInitial
  rw [h1]
  by_cases hall : ∀ con ∈ cs, f con p = true
  · rw [if_pos hall, List.all_eq_true.2 hall]
    exact ⟨s1, rfl⟩
  · rw [if_neg hall]
    have : cs.all (fun con => f con p) = false := by
      rw [Bool.eq_false_iff]; intro h; exact hall (List.all_eq_true.1 h)
    rw [this]
    simp only
    rw [h2]
    refine ⟨s2, ?_⟩
    simp only
    unfold raiseFailed
    rw [if_pos (List.all_eq_true.2 h3)]

/-- **C15 (construction).** With boolean, named constraints, construction raises `ValueError` exactly when the initial
state violates some constraint, and otherwise returns the chain. -/
theorem C15_init_raises_iff (c : ChainCfg S R) (cs : List (Constraint S R)) (f : Constraint S R → R → Bool)
    (hf : ∀ con ∈ cs, con.Plain (f con)) (s : S) :
    ((∃ s', Chain.init c cs s = (.error .valueError, s')) ↔ ∃ con ∈ cs, f con c.initial = false) ∧
    ((∃ s', Chain.init c cs s = (.ok ⟨cs, none, c.initial⟩, s')) ↔ ∀ con ∈ cs, f con c.initial = true) := by
  obtain ⟨s', h⟩ := checkInitial_plain (p := c.initial) hf s
  unfold Chain.init
  rw [h]
  by_cases hall : ∀ con ∈ cs, f con c.initial = true
  · rw [if_pos hall]
    refine ⟨⟨fun ⟨_, h⟩ => by simp at h, ?_⟩, fun _ => hall, fun _ => ⟨s', rfl⟩⟩
    rintro ⟨con, h1, h2⟩
    rw [hall con h1] at h2
    cases h2
  · rw [if_neg hall]
    refine ⟨⟨fun _ => ?_, fun _ => ⟨s', rfl⟩⟩, fun ⟨_, h⟩ => by simp at h, fun h => absurd h hall⟩
    push Not at hall
    obtain ⟨con, h1, h2⟩ := hall
    exact ⟨con, h1, by simpa using h2⟩

/-- **C15 (assignment).** `chain.constraints = cs` raises `ValueError` and keeps the chain as it was exactly when the
initial state violates one of the new constraints; otherwise the new constraints replace the old ones. -/
theorem C15_setter_atomic (c : ChainCfg S R) (ch : Chain S R) (cs : List (Constraint S R))
    (f : Constraint S R → R → Bool) (hf : ∀ con ∈ cs, con.Plain (f con)) (s : S) :
    ((∃ con ∈ cs, f con c.initial = false) → ∃ s', ch.setConstraints c cs s = (.error .valueError, ch, s')) ∧
    ((∀ con ∈ cs, f con c.initial = true) → ∃ s', ch.setConstraints c cs s = (.ok (), ⟨cs, ch.counter, ch.state⟩, s')) := by
  obtain ⟨s', h⟩ := checkInitial_plain (p := c.initial) hf s
  unfold Chain.setConstraints
  rw [h]
  constructor
  · rintro ⟨con, h1, h2⟩
    rw [if_neg (by intro hall; rw [hall con h1] at h2; cases h2)]
    exact ⟨s', rfl⟩
  · intro hall
    rw [if_pos hall]
    exact ⟨s', rfl⟩

/-- **C15 (any constraints).** Whatever the constraints do, a setter call that raises leaves the chain unchanged, and a
chain is constructed only if the validator returned `True` on the initial state. -/
theorem C15_atomic_general (c : ChainCfg S R) (ch : Chain S R) (cs : List (Constraint S R)) (s : S) :
    (∀ e ch' s', ch.setConstraints c cs s = (.error e, ch', s') → ch' = ch) ∧
    (∀ ch' s', Chain.init c cs s = (.ok ch', s') → AllPass c.initial cs s s') := by
  constructor
  · intro e ch' s' h
    unfold Chain.setConstraints at h
    rcases hc : checkInitial c.initial cs s with ⟨e' | u, s1⟩ <;> rw [hc] at h <;> simp only [Prod.mk.injEq] at h
    · exact h.2.1.symm
    · simp at h
  · intro ch' s' h
    unfold Chain.init checkInitial at h
    rw [← C19_validator_true]
    rcases hv : validator c.initial cs s with ⟨e' | (_ | _), s1⟩ <;> rw [hv] at h <;> simp only at h
    · simp at h
    · rcases hf : failedConstraints c.initial cs s1 with ⟨e' | l, s3⟩ <;> rw [hf] at h <;> simp at h
    · simp only [Prod.mk.injEq] at h
      rw [h.2]

/-! ### C16 -/

/-- The `n`-th ancestor of `r`: follow `.parent` `n` times. -/
def ancestor (parent : R → Option R) : ℕ → R → Option R
  | 0, r => some r
  | n + 1, r => (parent r).bind (ancestor parent n)

theorem ancestor_mono {parent : R → Option R} {n m : ℕ} (h : n ≤ m) {r : R} (hr : ancestor parent n r = none) :
    ancestor parent m r = none := by
  induction n generalizing m r with
  | zero => simp [ancestor] at hr
  | succ n ih =>
    obtain ⟨m, rfl⟩ : ∃ m', m = m' + 1 := ⟨m - 1, by omega⟩
    unfold ancestor at hr ⊢
    rcases hp : parent r with _ | q
    · rfl
    · rw [hp] at hr
      exact ih (by omega) hr

/-- How the callables of a chain may affect parents: `erase` unsets one pointer, constraints and acceptance leave all
pointers alone, and a proposal returns an object obtained from the current state by at most `k` successive flips (`k = 1`
for all proposals of the library, 0 flips being the state itself), or one with at most `k` ancestors. -/
structure Lineage (c : ChainCfg S R) (cs : List (Constraint S R)) (parent : S → R → Option R) (k : ℕ) : Prop where
  erase_self : ∀ s r, parent (c.erase r s) r = none
  erase_ne : ∀ s r r', r' ≠ r → parent (c.erase r s) r' = parent s r'
  proposal : ∀ s st q s1, c.proposal st s = (.ok q, s1) →
    (∃ j ≤ k, ancestor (parent s1) j q = some st) ∨ ancestor (parent s1) (k + 1) q = none
  constraint : ∀ con ∈ cs, ∀ s r, parent (con.call r s).2 = parent s
  accept : ∀ s r, parent (c.accept r s).2 = parent s

theorem Lineage.erase_none {c : ChainCfg S R} {cs : List (Constraint S R)} {parent : S → R → Option R} {k : ℕ}
    (h : Lineage c cs parent k) {s : S} {st q : R} {n : ℕ} (hq : ancestor (parent s) n q = none) :
    ancestor (parent (c.erase st s)) n q = none := by
  classical
  induction n generalizing q with
  | zero => simp [ancestor] at hq
  | succ n ih =>
    unfold ancestor at hq ⊢
    by_cases hs : q = st
    · subst hs; rw [h.erase_self]; rfl
    · rw [h.erase_ne _ _ _ hs]
      rcases hp : parent s q with _ | q'
      · rfl
      · rw [hp] at hq; exact ih hq

theorem Lineage.erase_reach {c : ChainCfg S R} {cs : List (Constraint S R)} {parent : S → R → Option R} {k : ℕ}
    (h : Lineage c cs parent k) {s : S} {st q : R} {n : ℕ} (hq : ancestor (parent s) n q = some st) :
    ancestor (parent (c.erase st s)) (n + 1) q = none := by
  classical
  induction n generalizing q with
  | zero =>
    simp only [ancestor, Option.some.injEq] at hq
    subst hq
    unfold ancestor; rw [h.erase_self]; rfl
  | succ n ih =>
    unfold ancestor at hq ⊢
    by_cases hs : q = st
    · subst hs; rw [h.erase_self]; rfl
    · rw [h.erase_ne _ _ _ hs]
      rcases hp : parent s q with _ | q'
      · rfl
      · rw [hp] at hq; exact ih hq

theorem Lineage.validator {c : ChainCfg S R} {parent : S → R → Option R} {k : ℕ} {cs cs' : List (Constraint S R)}
    (h : Lineage c cs parent k) (hcs : ∀ con ∈ cs', con ∈ cs) (q : R) (s : S) :
    parent (GC.validator q cs' s).2 = parent s := by
  induction cs' generalizing s with
  | nil => rfl
  | cons a cs' ih =>
    have ha := h.constraint a (hcs a List.mem_cons_self) s q
    have ih' := ih (fun con hc => hcs con (List.mem_cons_of_mem _ hc))
    unfold GC.validator
    rcases hc : a.call q s with ⟨e | ((_ | _) | (_ | _) | b), s1⟩ <;> rw [hc] at ha <;> simp only at ha ⊢ <;>
      first | exact ha | rw [ih' s1, ha]

/-- **C16.** If proposals are at most `k` flips away from the current state, then after every step of the chain the
current state has at most `k` ancestors, however long the chain has been running. -/
theorem C16_bounded_ancestors (c : ChainCfg S R) (ch : Chain S R) (parent : S → R → Option R) (k : ℕ)
    (h : Lineage c ch.isValid parent k) (n fuel : ℕ) (hn : ch.counter = some (n + 1)) (s s' : S) (y : R) (ch' : Chain S R)
    (hy : ch.next c fuel s = some (.ok y, ch', s')) :
    ch'.state = y ∧ ancestor (parent s') (k + 1) y = none := by
  have hk : ((n + 1 : ℕ) : ℤ) < c.totalSteps := by
    unfold Chain.next at hy
    rw [hn] at hy
    obtain ⟨-, ⟨y, -, -, -, h4⟩ | ⟨e, he, -⟩⟩ := loop_result hy
    · exact h4
    · cases he
  obtain ⟨s0, q, b, -, ⟨s1, s3, hp, hv, ha⟩, hyq, hch⟩ := (C18_next_iff c ch n hn hk s y ch' s').1 ⟨fuel, hy⟩
  refine ⟨by rw [hch], ?_⟩
  have h3 : parent s3 = parent (c.erase ch.state s1) := by
    have := h.validator (fun con hc => hc) q (c.erase ch.state s1)
    rw [hv] at this
    exact this
  have h4 : parent s' = parent s3 := by
    have := h.accept s3 q
    rw [ha] at this
    exact this
  rw [h4, h3]
  cases b
  · simp only [Bool.false_eq_true, if_false] at hyq
    subst hyq
    exact ancestor_mono (Nat.succ_le_succ (Nat.zero_le k)) (by unfold ancestor; rw [h.erase_self]; rfl)
  · simp only [if_true] at hyq
    subst hyq
    rcases h.proposal s0 ch.state y s1 hp with ⟨j, hj, hq⟩ | hq
    · exact ancestor_mono (Nat.succ_le_succ hj) (h.erase_reach hq)
    · exact h.erase_none hq

/-! ### Non-vacuity -/

/-- A small chain on numbers whose random draws are a list: propose `state + draw`, multiples of 3 are invalid, accept
unless the state would be 5. -/
def exCfg (n : ℤ) : ChainCfg (List ℕ) ℕ where
  proposal st s := (.ok (st + s.headD 1), s.tail)
  accept r s := (.ok (r != 5), s)
  erase _ s := s
  totalSteps := n
  initial := 1

/-- the constraint of `exCfg` -/
def exCon : Constraint (List ℕ) ℕ := ⟨fun r s => (.ok (.bool (r % 3 != 0)), s), some "not_multiple_of_3"⟩

example : Chain.list (exCfg 4) 9 9 ⟨[exCon], none, 1⟩ [2, 1, 3, 5, 9] =
    some (.ok [1, 2, 2, 7], ⟨[exCon], some 4, 7⟩, [9]) := by rfl

example : NoStop (exCfg 4) [exCon] :=
  ⟨fun _ _ _ h => by simp [exCfg] at h, fun _ _ _ h => by simp [exCfg] at h, fun con hc _ _ _ h => by
    simp only [List.mem_singleton] at hc
    subst hc
    simp [exCon] at h⟩

example : exCon.Plain (fun r => r % 3 != 0) := ⟨fun _ s => ⟨s, .inl rfl⟩, rfl⟩

/-- the retry of C18: the first draw is refused, the second accepted -/
example : Chain.next (exCfg 4) ⟨[exCon], some 1, 1⟩ 2 [2, 1] = some (.ok 2, ⟨[exCon], some 2, 2⟩, []) := by rfl

/-- a step that blocks: every proposal from 1 adds 2 -/
example : ∀ fuel, Chain.next { exCfg 4 with proposal := fun st s => (.ok (st + 2), s) } ⟨[exCon], some 1, 1⟩ fuel [] = none :=
  (C18_blocks_iff _ _ 0 rfl (by decide) _).2 ⟨fun _ => [], fun _ => 3, fun _ => [], rfl, fun _ => ⟨by rfl, by simp [validator, exCon, exCfg]⟩⟩

example : (∃ s', Chain.init (exCfg 4) [exCon] [] = (.ok ⟨[exCon], none, 1⟩, s')) ∧
    (∃ s', Chain.init { exCfg 4 with initial := 3 } [exCon] [] = (.error .valueError, s')) := ⟨⟨_, rfl⟩, ⟨_, rfl⟩⟩

/-- A constraint without `__name__` (for instance a `functools.partial`) turns the `ValueError` into `AttributeError`; this
is why C15 asks for named constraints. -/
example : ∃ s', Chain.init { exCfg 4 with initial := 3 } [{ exCon with name := none }] [] = (.error .attributeError, s') :=
  ⟨_, rfl⟩

/-- Why C13 asks that callables do not raise `StopIteration`: a proposal that raises it ends the loop early. -/
example : Chain.list { exCfg 4 with proposal := fun _ s => (.error .stopIteration, s) } 9 9 ⟨[exCon], none, 1⟩ [] =
    some (.ok [1], ⟨[exCon], some 1, 1⟩, []) := by rfl

/-- Lineage is satisfiable with one flip per proposal: the world holds the parents of all objects. -/
example : Lineage (S := ℕ → Option ℕ) (R := ℕ)
    { proposal := fun st s => (.ok (st + 1), fun r => if r = st + 1 then some st else s r)
      accept := fun _ s => (.ok true, s)
      erase := fun r s r' => if r' = r then none else s r'
      totalSteps := 5
      initial := 0 } [] (fun s => s) 1 := by
  constructor
  · intro s r; simp
  · intro s r r' h; simp [h]
  · intro s st q s1 h
    simp only [Prod.mk.injEq, Except.ok.injEq] at h
    obtain ⟨rfl, rfl⟩ := h
    exact .inl ⟨1, le_rfl, by simp [ancestor]⟩
  · intro con h; simp at h
  · intro s r; rfl

end GC

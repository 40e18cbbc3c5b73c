import Verif.Model.Optimizer
import Verif.Props.Chain
import Verif.Lemmas.TreeCuts
import Mathlib.MeasureTheory.Measure.Lebesgue.Basic
import Mathlib.Analysis.Complex.ExponentialBounds

/-!
# Optimization runs keep the best state (C47, C49, C66, C67)
-/

set_option linter.unusedSectionVars false
set_option autoImplicit false

namespace GC

variable {S R A : Type}

section
variable [LinearOrder A]

/-- score `a` is not better than `b` -/
def NoBetter (maximize : Bool) (a b : A) : Prop := if maximize then a ≤ b else b ≤ a

/-- score `a` is worse than `b` -/
def Worse (maximize : Bool) (a b : A) : Prop := if maximize then a < b else b < a

/-- `b` is the last of the best observations in `obs` -/
def LastBest (maximize : Bool) (obs : List (R × A)) (b : R × A) : Prop :=
  ∃ l1 l2, obs = l1 ++ b :: l2 ∧ (∀ o ∈ l1, NoBetter maximize o.2 b.2) ∧ ∀ o ∈ l2, Worse maximize o.2 b.2

theorem isImprovement_iff {m : Bool} {a b : A} : isImprovement m a b = true ↔ NoBetter m b a := by
  unfold isImprovement NoBetter
  cases m <;> simp

theorem not_isImprovement_iff {m : Bool} {a b : A} : isImprovement m a b = false ↔ Worse m a b := by
  unfold isImprovement Worse
  cases m <;> simp

theorem NoBetter.trans {m : Bool} {a b c : A} (h : NoBetter m a b) (h' : NoBetter m b c) : NoBetter m a c := by
  unfold NoBetter at *
  cases m
  · simp only [Bool.false_eq_true, if_false] at *; exact h'.trans h
  · simp only [if_true] at *; exact h.trans h'

theorem NoBetter.refl {m : Bool} (a : A) : NoBetter m a a := by unfold NoBetter; cases m <;> simp

theorem Worse.noBetter {m : Bool} {a b : A} (h : Worse m a b) : NoBetter m a b := by
  unfold Worse NoBetter at *
  cases m
  · simp only [Bool.false_eq_true, if_false] at *; exact h.le
  · simp only [if_true] at *; exact h.le

/-- What `LastBest` says: the optimum, and it is attained by an observed state. -/
theorem LastBest.spec {m : Bool} {obs : List (R × A)} {b : R × A} (h : LastBest m obs b) :
    b ∈ obs ∧ ∀ o ∈ obs, NoBetter m o.2 b.2 := by
  obtain ⟨l1, l2, rfl, h1, h2⟩ := h
  refine ⟨by simp, fun o ho => ?_⟩
  rcases List.mem_append.1 ho with ho | ho
  · exact h1 o ho
  · rcases List.mem_cons.1 ho with rfl | ho
    · exact NoBetter.refl _
    · exact (h2 o ho).noBetter

theorem LastBest.update {o : OptCfg S R A} {obs : List (R × A)} {b : R × A} (h : LastBest o.maximize obs b) (part : R) (a : A) :
    LastBest o.maximize (obs ++ [(part, a)]) (o.update b part a) := by
  obtain ⟨hb, hall⟩ := h.spec
  unfold OptCfg.update
  rcases hi : isImprovement o.maximize a b.2 with _ | _
  · rw [if_neg (by simp)]
    obtain ⟨l1, l2, rfl, h1, h2⟩ := h
    refine ⟨l1, l2 ++ [(part, a)], by simp, h1, fun x hx => ?_⟩
    rcases List.mem_append.1 hx with hx | hx
    · exact h2 x hx
    · rw [List.mem_singleton] at hx
      subst hx
      exact not_isImprovement_iff.1 hi
  · rw [if_pos rfl]
    exact ⟨obs, [], rfl, fun x hx => (hall x hx).trans (isImprovement_iff.1 hi), by simp⟩

/-- the observation behind a snapshot -/
def Snap.obs (x : Snap R A) : R × A := (x.part, x.score)

/-- `(best_part, best_score)` after the first `k` states of a run that started with `b` -/
def bestAfter (b : R × A) (trace : List (Snap R A)) (k : ℕ) : R × A := ((trace.take k).getLast?.map Snap.best).getD b

/-- The run `r`, started with `b`, keeps track of the best state. -/
structure Tracks (o : OptCfg S R A) (b : R × A) (r : OptRun S R A) : Prop where
  /-- after `k` states: the last of the best among what was known before and the `k` observed states -/
  best : ∀ (obs : List (R × A)), LastBest o.maximize obs b → ∀ k ≤ r.trace.length,
    LastBest o.maximize (obs ++ (r.trace.take k).map Snap.obs) (bestAfter b r.trace k)
  final : r.best = bestAfter b r.trace r.trace.length
  /-- the recorded scores are scores of the yielded states -/
  scores : ∀ x ∈ r.trace, ∃ s s', o.score x.part s = (.ok x.score, s')
  /-- every yielded state is processed, except the last one when the run was interrupted -/
  yields : r.yielded = r.trace.map Snap.part ∨
    ∃ x, r.yielded = r.trace.map Snap.part ++ [x] ∧ ∃ e, r.status = some (.error e)

theorem Tracks.nil {o : OptCfg S R A} {b : R × A} {st : Option (Py Unit)} {s : S} : Tracks o b ⟨st, [], [], b, s⟩ :=
  ⟨fun obs h k hk => by simpa [bestAfter] using h, rfl, by simp, .inl rfl⟩

theorem Tracks.one {o : OptCfg S R A} {b : R × A} {e : PyErr} {s : S} {x : R} : Tracks o b ⟨some (.error e), [x], [], b, s⟩ :=
  ⟨fun obs h k hk => by simpa [bestAfter] using h, rfl, by simp, .inr ⟨x, rfl, e, rfl⟩⟩

theorem bestAfter_cons {b : R × A} {x : Snap R A} {l : List (Snap R A)} {k : ℕ} :
    bestAfter b (x :: l) (k + 1) = bestAfter x.best l k := by
  unfold bestAfter
  rw [List.take_succ_cons]
  rcases h : l.take k with _ | ⟨y, ys⟩
  · simp
  · rw [List.getLast?_cons_cons]
    rcases hl : (y :: ys).getLast? with _ | z
    · simp at hl
    · simp

theorem bestAfter_append {b : R × A} {l l' : List (Snap R A)} {k : ℕ} :
    bestAfter b (l ++ l') (l.length + k) = bestAfter (bestAfter b l l.length) l' k := by
  induction l generalizing b with
  | nil => simp [bestAfter]
  | cons x l ih =>
    rw [List.cons_append, List.length_cons, show l.length + 1 + k = (l.length + k) + 1 by omega, bestAfter_cons, ih, bestAfter_cons]

theorem bestAfter_append_le {b : R × A} {l l' : List (Snap R A)} {k : ℕ} (hk : k ≤ l.length) :
    bestAfter b (l ++ l') k = bestAfter b l k := by
  unfold bestAfter
  rw [List.take_append_of_le_length hk]

theorem Tracks.cons {o : OptCfg S R A} {b : R × A} {part : R} {a : A} {r : OptRun S R A} (h : Tracks o (o.update b part a) r)
    (hs : ∃ s s', o.score part s = (.ok a, s')) :
    Tracks o b { r with yielded := part :: r.yielded, trace := ⟨part, a, o.update b part a⟩ :: r.trace } := by
  refine ⟨fun obs hb k hk => ?_, ?_, ?_, ?_⟩
  · rcases k with _ | k
    · simpa [bestAfter] using hb
    · simp only [List.length_cons] at hk
      have := h.best (obs ++ [(part, a)]) (hb.update part a) k (by omega)
      simp only [List.take_succ_cons, List.map_cons]
      rw [bestAfter_cons]
      simpa [Snap.obs] using this
  · simp only [List.length_cons]
    rw [bestAfter_cons]
    exact h.final
  · intro x hx
    rcases List.mem_cons.1 hx with rfl | hx
    · exact hs
    · exact h.scores x hx
  · rcases h.yields with h1 | ⟨x, h1, h2⟩
    · exact .inl (by simp [h1])
    · exact .inr ⟨x, by simp [h1], h2⟩

theorem Tracks.append {o : OptCfg S R A} {b : R × A} {r r' : OptRun S R A} (h : Tracks o b r) (hok : r.status = some (.ok ()))
    (h' : Tracks o r.best r') : Tracks o b (r.append r') := by
  refine ⟨fun obs hb k hk => ?_, ?_, ?_, ?_⟩
  · simp only [OptRun.append] at hk ⊢
    rcases le_or_gt k r.trace.length with hle | hgt
    · rw [bestAfter_append_le hle, List.take_append_of_le_length hle]
      exact h.best obs hb k hle
    · obtain ⟨j, rfl⟩ : ∃ j, k = r.trace.length + j := ⟨k - r.trace.length, by omega⟩
      rw [bestAfter_append, ← h.final, List.take_length_add_append, List.map_append, ← List.append_assoc]
      refine h'.best _ ?_ j (by rw [List.length_append] at hk; omega)
      have := h.best obs hb r.trace.length le_rfl
      rw [← h.final, List.take_length] at this
      exact this
  · simp only [OptRun.append]
    rw [List.length_append, bestAfter_append, ← h.final]
    exact h'.final
  · intro x hx
    rcases List.mem_append.1 hx with hx | hx
    · exact h.scores x hx
    · exact h'.scores x hx
  · have h1 : r.yielded = r.trace.map Snap.part := by
      rcases h.yields with h1 | ⟨x, -, e, he⟩
      · exact h1
      · rw [hok] at he; cases he
    simp only [OptRun.append]
    rcases h'.yields with h2 | ⟨x, h2, h3⟩
    · exact .inl (by simp [h1, h2])
    · exact .inr ⟨x, by simp [h1, h2], h3⟩

theorem watch_tracks (o : OptCfg S R A) (c : ChainCfg S R) (fuel : ℕ) : ∀ (body : ℕ) (ch : Chain S R) (b : R × A) (s : S),
    Tracks o b (o.watch c fuel body ch b s) := by
  intro body
  induction body with
  | zero => exact fun _ _ _ => Tracks.nil
  | succ body ih =>
    intro ch b s
    unfold OptCfg.watch
    rcases Chain.next c ch fuel s with _ | ⟨e | part, ch', s1⟩
    · exact Tracks.nil
    · cases e <;> exact Tracks.nil
    simp only
    rcases o.consumer part s1 with ⟨e | u, s2⟩
    · exact Tracks.one
    simp only
    rcases hsc : o.score part s2 with ⟨e | a, s3⟩
    · exact Tracks.one
    exact (ih ch' _ s3).cons ⟨s2, s3, hsc⟩

theorem burst_tracks (o : OptCfg S R A) (accept : R → M S Bool) (steps : ℤ) (fuel body : ℕ) (b : R × A) (s : S) :
    Tracks o b (o.burst accept steps fuel body b s) := by
  unfold OptCfg.burst
  rcases Chain.init (o.chain accept b.1 steps) o.constraints s with ⟨e | ch, s1⟩
  · exact Tracks.nil
  · exact watch_tracks ..

theorem bursts_tracks (o : OptCfg S R A) (accept : R → M S Bool) (length : ℤ) (fuel body : ℕ) : ∀ (n : ℕ) (b : R × A) (s : S),
    Tracks o b (o.bursts accept length fuel body n b s) := by
  intro n
  induction n with
  | zero => exact fun _ _ => Tracks.nil
  | succ n ih =>
    intro b s
    unfold OptCfg.bursts
    have h1 := burst_tracks o accept length fuel body b s
    simp only
    split
    · rename_i hst
      exact h1.append hst (ih _ _)
    · exact h1

theorem watchVar_tracks (o : OptCfg S R A) (c : ChainCfg S R) (numSteps : ℤ) (fuel : ℕ) : ∀ (body : ℕ) (ch : Chain S R) (b : R × A)
    (stuck i : ℕ) (s : S), Tracks o b (o.watchVar c numSteps fuel body ch b stuck i s).1 := by
  intro body
  induction body with
  | zero => exact fun _ _ _ _ _ => Tracks.nil
  | succ body ih =>
    intro ch b stuck i s
    unfold OptCfg.watchVar
    rcases Chain.next c ch fuel s with _ | ⟨e | part, ch', s1⟩
    · exact Tracks.nil
    · cases e <;> exact Tracks.nil
    simp only
    rcases o.consumer part s1 with ⟨e | u, s2⟩
    · exact Tracks.one
    simp only
    rcases hsc : o.score part s2 with ⟨e | a, s3⟩
    · exact Tracks.one
    simp only
    split
    · exact (Tracks.nil (o := o) (b := o.update b part a) (st := some (.ok ())) (s := s3)).cons ⟨s2, s3, hsc⟩
    · exact (ih ch' _ _ _ s3).cons ⟨s2, s3, hsc⟩

theorem burstVar_tracks (o : OptCfg S R A) (accept : R → M S Bool) (numSteps : ℤ) (length fuel body : ℕ) (b : R × A) (stuck i : ℕ)
    (s : S) : Tracks o b (o.burstVar accept numSteps length fuel body b stuck i s).1 := by
  unfold OptCfg.burstVar
  rcases Chain.init (o.chain accept b.1 length) o.constraints s with ⟨e | ch, s1⟩
  · exact Tracks.nil
  · exact watchVar_tracks ..

theorem varBursts_tracks (o : OptCfg S R A) (accept : R → M S Bool) (numSteps stuckBuffer : ℤ) (fuel body : ℕ) :
    ∀ (n length : ℕ) (b : R × A) (stuck i : ℕ) (s : S),
      Tracks o b (o.varBursts accept numSteps stuckBuffer fuel body n length b stuck i s) := by
  intro n
  induction n with
  | zero => exact fun _ _ _ _ _ => Tracks.nil
  | succ n ih =>
    intro length b stuck i s
    unfold OptCfg.varBursts
    have h1 := burstVar_tracks o accept numSteps length fuel body b stuck i s
    split
    · simp only
      split
      · rename_i hst
        exact h1.append hst (ih _ _ _ _ _)
      · exact h1
    · exact Tracks.nil

/-- The claim of C47 about a run that began with score `a0` of the initial partition. -/
structure KeepsBest (o : OptCfg S R A) (a0 : A) (run : OptRun S R A) : Prop where
  /-- the score of the initial partition was computed -/
  initial : ∃ s s', o.score o.initial s = (.ok a0, s')
  /-- after `k` states `(best_part, best_score)` is the last of the best among the initial and all observed states -/
  best : ∀ k ≤ run.trace.length,
    LastBest o.maximize ((o.initial, a0) :: (run.trace.take k).map Snap.obs) (bestAfter (o.initial, a0) run.trace k)
  /-- in particular at the end -/
  final : run.best = bestAfter (o.initial, a0) run.trace run.trace.length
  /-- it never gets worse -/
  mono : ∀ j k, j ≤ k → k ≤ run.trace.length →
    NoBetter o.maximize (bestAfter (o.initial, a0) run.trace j).2 (bestAfter (o.initial, a0) run.trace k).2
  /-- the recorded scores are scores of the yielded states -/
  scores : ∀ x ∈ run.trace, ∃ s s', o.score x.part s = (.ok x.score, s')
  /-- every yielded state was processed, except the last one when the run was interrupted -/
  yields : run.yielded = run.trace.map Snap.part ∨
    ∃ x, run.yielded = run.trace.map Snap.part ++ [x] ∧ ∃ e, run.status = some (.error e)

theorem Tracks.keepsBest {o : OptCfg S R A} {a0 : A} {run : OptRun S R A} (h : Tracks o (o.initial, a0) run)
    (hi : ∃ s s', o.score o.initial s = (.ok a0, s')) : KeepsBest o a0 run := by
  have hb : ∀ k ≤ run.trace.length,
      LastBest o.maximize ((o.initial, a0) :: (run.trace.take k).map Snap.obs) (bestAfter (o.initial, a0) run.trace k) :=
    fun k hk => h.best [(o.initial, a0)] ⟨[], [], rfl, by simp, by simp⟩ k hk
  refine ⟨hi, hb, h.final, fun j k hjk hk => ?_, h.scores, h.yields⟩
  refine (hb k hk).spec.2 _ ?_
  have := (hb j (hjk.trans hk)).spec.1
  rcases List.mem_cons.1 this with h1 | h1
  · rw [h1]; exact List.mem_cons_self
  · exact List.mem_cons_of_mem _ ((List.Sublist.map _ (List.take_sublist_take_left hjk)).subset h1)

/-- **C47** `short_bursts` (and `tilted_short_bursts`, with another acceptance function) keeps the best state: for all scores with
a total order, all proposals, constraints, acceptance functions and consumers, also when the run ends with an exception. -/
theorem C47_short_bursts (o : OptCfg S R A) (accept : R → M S Bool) (length : ℤ) (num fuel body : ℕ) (s : S) (a0 : A)
    (run : OptRun S R A) (h : o.shortBursts accept length num fuel body s = .ok (a0, run)) : KeepsBest o a0 run := by
  unfold OptCfg.shortBursts at h
  rcases hs : o.score o.initial s with ⟨e | a, s1⟩ <;> rw [hs] at h <;> cases h
  exact (bursts_tracks ..).keepsBest ⟨s, s1, hs⟩

/-- **C47** the same for `simulated_annealing` and `tilted_run`. -/
theorem C47_single_run (o : OptCfg S R A) (accept : R → M S Bool) (steps : ℤ) (fuel body : ℕ) (s : S) (a0 : A)
    (run : OptRun S R A) (h : o.singleRun accept steps fuel body s = .ok (a0, run)) : KeepsBest o a0 run := by
  unfold OptCfg.singleRun at h
  rcases hc : Chain.init (o.chain accept o.initial steps) o.constraints s with ⟨e | ch, s1⟩ <;> rw [hc] at h
  · cases h
  simp only at h
  rcases hs : o.score o.initial s1 with ⟨e | a, s2⟩ <;> rw [hs] at h <;> cases h
  exact (watch_tracks ..).keepsBest ⟨s1, s2, hs⟩

/-- **C47** the same for `variable_length_short_bursts`. -/
theorem C47_variable_length (o : OptCfg S R A) (accept : R → M S Bool) (numSteps stuckBuffer : ℤ) (fuel body bursts : ℕ) (s : S)
    (a0 : A) (run : OptRun S R A) (h : o.variableLength accept numSteps stuckBuffer fuel body bursts s = .ok (a0, run)) :
    KeepsBest o a0 run := by
  unfold OptCfg.variableLength at h
  rcases hs : o.score o.initial s with ⟨e | a, s1⟩ <;> rw [hs] at h <;> cases h
  exact (varBursts_tracks ..).keepsBest ⟨s, s1, hs⟩

end

/-! ### How many states (C66) -/

section
variable [LinearOrder A]

theorem watch_count {o : OptCfg S R A} {c : ChainCfg S R} {fuel : ℕ} : ∀ {body : ℕ} {ch : Chain S R} {b : R × A} {s : S} {k : ℕ},
    ch.counter = some k → k ≤ yields c → NoStop c ch.isValid → (o.watch c fuel body ch b s).status = some (.ok ()) →
    (o.watch c fuel body ch b s).yielded.length = yields c - k ∧
      (o.watch c fuel body ch b s).trace.length = yields c - k ∧
      (k = 0 → (o.watch c fuel body ch b s).yielded.head? = some ch.state) := by
  intro body
  induction body with
  | zero => intro ch b s k _ _ _ h; simp [OptCfg.watch] at h
  | succ body ih =>
    intro ch b s k hc hk hns h
    unfold OptCfg.watch at h ⊢
    rcases hn : Chain.next c ch fuel s with _ | ⟨r, ch', s1⟩ <;> rw [hn] at h
    · simp at h
    obtain ⟨hv, ⟨y, rfl, h2, h3, h4, h5⟩ | ⟨e, rfl, h2, h3, h4⟩⟩ := next_result hc hn
    · simp only at h ⊢
      rcases hcons : o.consumer y s1 with ⟨e | u, s2⟩ <;> rw [hcons] at h <;> simp only at h ⊢
      · simp at h
      rcases hsc : o.score y s2 with ⟨e | a, s3⟩ <;> rw [hsc] at h <;> simp only at h ⊢
      · simp at h
      obtain ⟨g1, g2, g3⟩ := ih h2 (by omega) (hv ▸ hns) h
      exact ⟨by rw [List.length_cons, g1]; omega, by rw [List.length_cons, g2]; omega, fun h0 => by rw [h5 h0]; rfl⟩
    · have he : e = .stopIteration := by
        by_contra hne
        rcases e <;> simp at h hne
      subst he
      have : ¬ k < yields c := fun hlt => h3 hlt hns rfl
      simp only
      refine ⟨by simp only [List.length_nil]; omega, by simp only [List.length_nil]; omega, fun h0 => ?_⟩
      exfalso
      unfold yields at *
      omega

theorem burst_count {o : OptCfg S R A} {accept : R → M S Bool} {steps : ℤ} {fuel body : ℕ} {b : R × A} {s : S}
    (hns : NoStop (o.chain accept b.1 steps) o.constraints) (h : (o.burst accept steps fuel body b s).status = some (.ok ())) :
    (o.burst accept steps fuel body b s).yielded.length = max 1 steps.toNat ∧
      (o.burst accept steps fuel body b s).trace.length = max 1 steps.toNat ∧
      (o.burst accept steps fuel body b s).yielded.head? = some b.1 := by
  unfold OptCfg.burst at h ⊢
  rcases hi : Chain.init (o.chain accept b.1 steps) o.constraints s with ⟨e | ch, s1⟩ <;> rw [hi] at h <;> simp only at h ⊢
  · simp at h
  have hch : ch = ⟨o.constraints, none, b.1⟩ := by
    unfold Chain.init at hi
    split at hi
    · cases hi
    · simp only [Prod.mk.injEq, Except.ok.injEq] at hi
      exact hi.1.symm
  subst hch
  obtain ⟨h1, h2, h3⟩ := watch_count (k := 0) rfl (Nat.zero_le _) hns h
  exact ⟨h1, h2, h3 rfl⟩

/-- The states at which the bursts begin, as long as bursts have `L` states: the `j`-th is the best state known then. -/
theorem bursts_count {o : OptCfg S R A} {accept : R → M S Bool} {length : ℤ} {fuel body : ℕ}
    (hns : NoStop (o.chain accept o.initial length) o.constraints) : ∀ {n : ℕ} {b : R × A} {s : S},
    (∀ b s, (o.burst accept length fuel body b s).best =
      bestAfter b (o.burst accept length fuel body b s).trace (o.burst accept length fuel body b s).trace.length) →
    (o.bursts accept length fuel body n b s).status = some (.ok ()) →
    (o.bursts accept length fuel body n b s).yielded.length = n * max 1 length.toNat ∧
      ∀ j < n, (o.bursts accept length fuel body n b s).yielded[j * max 1 length.toNat]? =
        some (bestAfter b (o.bursts accept length fuel body n b s).trace (j * max 1 length.toNat)).1 := by
  intro n
  induction n with
  | zero => intro b s _ _; simp [OptCfg.bursts]
  | succ n ih =>
    intro b s hfin h
    unfold OptCfg.bursts at h ⊢
    simp only at h ⊢
    rcases hst : (o.burst accept length fuel body b s).status with _ | e | u <;> rw [hst] at h <;> simp only at h ⊢
    · rw [hst] at h; cases h
    · rw [hst] at h; cases h
    obtain ⟨h1, h2, h3⟩ := burst_count ⟨hns.proposal, hns.accept, hns.constraint⟩ hst
    obtain ⟨h4, h5⟩ := ih hfin h
    set r := o.burst accept length fuel body b s
    set r' := o.bursts accept length fuel body n r.best r.world
    refine ⟨by simp only [OptRun.append, List.length_append, h1, h4]; ring, fun j hj => ?_⟩
    simp only [OptRun.append]
    rcases j with _ | j
    · rw [Nat.zero_mul]
      have : 0 < r.yielded.length := by rw [h1]; omega
      rw [List.getElem?_append_left this, ← List.head?_eq_getElem?, h3]
      simp [bestAfter]
    · rw [show (j + 1) * max 1 length.toNat = max 1 length.toNat + j * max 1 length.toNat by ring,
        List.getElem?_append_right (by omega), h1, Nat.add_sub_cancel_left, h5 j (by omega)]
      conv_rhs => rw [← h2, bestAfter_append, ← hfin b s]
      rw [h2]

theorem watchVar_count {o : OptCfg S R A} {c : ChainCfg S R} {numSteps : ℤ} {fuel : ℕ} : ∀ {body : ℕ} {ch : Chain S R} {b : R × A}
    {stuck i : ℕ} {s : S}, (i : ℤ) < numSteps →
    (o.watchVar c numSteps fuel body ch b stuck i s).2.2 = i + (o.watchVar c numSteps fuel body ch b stuck i s).1.trace.length ∧
      ((o.watchVar c numSteps fuel body ch b stuck i s).2.2 : ℤ) ≤ numSteps ∧
      ((o.watchVar c numSteps fuel body ch b stuck i s).1.status = some (.ok ()) →
        (o.watchVar c numSteps fuel body ch b stuck i s).1.yielded.length =
          (o.watchVar c numSteps fuel body ch b stuck i s).1.trace.length) := by
  intro body
  induction body with
  | zero => intro ch b stuck i s hi; refine ⟨rfl, by simp only [OptCfg.watchVar]; omega, fun _ => rfl⟩
  | succ body ih =>
    intro ch b stuck i s hi
    unfold OptCfg.watchVar
    rcases Chain.next c ch fuel s with _ | ⟨e | part, ch', s1⟩
    · exact ⟨rfl, hi.le, fun _ => rfl⟩
    · cases e <;> exact ⟨rfl, hi.le, fun _ => rfl⟩
    simp only
    rcases o.consumer part s1 with ⟨e | u, s2⟩
    · exact ⟨rfl, hi.le, fun h => by cases h⟩
    simp only
    rcases o.score part s2 with ⟨e | a, s3⟩
    · exact ⟨rfl, hi.le, fun h => by cases h⟩
    simp only
    split
    · refine ⟨rfl, ?_, fun _ => rfl⟩
      simp only
      push_cast
      omega
    · rename_i hlt
      obtain ⟨g1, g2, g3⟩ := ih (ch := ch') (b := o.update b part a) (stuck := if isImprovement o.maximize a b.2 then 0 else stuck + 1)
        (i := i + 1) (s := s3) (by omega)
      exact ⟨by simp only [List.length_cons]; rw [g1]; ring, g2, fun h => by simp only [List.length_cons]; rw [g3 h]⟩

theorem burstVar_count {o : OptCfg S R A} {accept : R → M S Bool} {numSteps : ℤ} {length fuel body : ℕ} {b : R × A} {stuck i : ℕ}
    {s : S} (hi : (i : ℤ) < numSteps) :
    (o.burstVar accept numSteps length fuel body b stuck i s).2.2 =
        i + (o.burstVar accept numSteps length fuel body b stuck i s).1.trace.length ∧
      ((o.burstVar accept numSteps length fuel body b stuck i s).2.2 : ℤ) ≤ numSteps ∧
      ((o.burstVar accept numSteps length fuel body b stuck i s).1.status = some (.ok ()) →
        (o.burstVar accept numSteps length fuel body b stuck i s).1.yielded.length =
          (o.burstVar accept numSteps length fuel body b stuck i s).1.trace.length) := by
  unfold OptCfg.burstVar
  rcases Chain.init (o.chain accept b.1 length) o.constraints s with ⟨e | ch, s1⟩
  · exact ⟨rfl, hi.le, fun h => by cases h⟩
  · exact watchVar_count hi

theorem varBursts_count {o : OptCfg S R A} {accept : R → M S Bool} {numSteps stuckBuffer : ℤ} {fuel body : ℕ} :
    ∀ {n length : ℕ} {b : R × A} {stuck i : ℕ} {s : S}, (i : ℤ) ≤ max numSteps 0 →
      (o.varBursts accept numSteps stuckBuffer fuel body n length b stuck i s).status = some (.ok ()) →
      i + (o.varBursts accept numSteps stuckBuffer fuel body n length b stuck i s).yielded.length = numSteps.toNat := by
  intro n
  induction n with
  | zero => intro length b stuck i s _ h; simp [OptCfg.varBursts] at h
  | succ n ih =>
    intro length b stuck i s hi h
    unfold OptCfg.varBursts at h ⊢
    split at h
    · rename_i hlt
      rw [if_pos hlt]
      simp only at h ⊢
      obtain ⟨g1, g2, g3⟩ := burstVar_count (o := o) (accept := accept) (length := length) (fuel := fuel) (body := body) (b := b)
        (stuck := stuck) (s := s) hlt
      rcases hst : (o.burstVar accept numSteps length fuel body b stuck i s).1.status with _ | e | u <;> rw [hst] at h <;>
        simp only at h ⊢
      · rw [hst] at h; cases h
      · rw [hst] at h; cases h
      have := ih (by omega) h
      simp only [OptRun.append, List.length_append]
      rw [g3 hst]
      omega
    · rename_i hlt
      rw [if_neg hlt]
      simp only [List.length_nil]
      omega

end

section
variable [LinearOrder A]

/-- **C66** A `short_bursts` run that ends normally yields `num_bursts * max(1, burst_length)` states, and the first state of each
burst is the best state known when that burst begins.  (No callable given to the chain raises `StopIteration`, which would end a
burst early.) -/
theorem C66_short_bursts (o : OptCfg S R A) (accept : R → M S Bool) (length : ℤ) (num fuel body : ℕ) (s : S) (a0 : A)
    (run : OptRun S R A) (hns : NoStop (o.chain accept o.initial length) o.constraints)
    (h : o.shortBursts accept length num fuel body s = .ok (a0, run)) (hok : run.status = some (.ok ())) :
    run.yielded.length = num * max 1 length.toNat ∧
      ∀ j < num, run.yielded[j * max 1 length.toNat]? = some (bestAfter (o.initial, a0) run.trace (j * max 1 length.toNat)).1 := by
  unfold OptCfg.shortBursts at h
  rcases hs : o.score o.initial s with ⟨e | a, s1⟩ <;> rw [hs] at h <;> cases h
  exact bursts_count hns (fun b s => (burst_tracks o accept length fuel body b s).final) hok

/-- **C66** A `simulated_annealing` or `tilted_run` run that ends normally yields `max(1, num_steps)` states, the first of which is the
initial partition. -/
theorem C66_single_run (o : OptCfg S R A) (accept : R → M S Bool) (steps : ℤ) (fuel body : ℕ) (s : S) (a0 : A)
    (run : OptRun S R A) (hns : NoStop (o.chain accept o.initial steps) o.constraints)
    (h : o.singleRun accept steps fuel body s = .ok (a0, run)) (hok : run.status = some (.ok ())) :
    run.yielded.length = max 1 steps.toNat ∧ run.yielded.head? = some o.initial := by
  unfold OptCfg.singleRun at h
  rcases hc : Chain.init (o.chain accept o.initial steps) o.constraints s with ⟨e | ch, s1⟩ <;> rw [hc] at h
  · cases h
  simp only at h
  rcases hs : o.score o.initial s1 with ⟨e | a, s2⟩ <;> rw [hs] at h <;> cases h
  have hch : ch = ⟨o.constraints, none, o.initial⟩ := by
    unfold Chain.init at hc
    split at hc
    · cases hc
    · simp only [Prod.mk.injEq, Except.ok.injEq] at hc
      exact hc.1.symm
  subst hch
  obtain ⟨h1, -, h3⟩ := watch_count (k := 0) rfl (Nat.zero_le _) hns hok
  exact ⟨h1, h3 rfl⟩

/-- **C66** A `variable_length_short_bursts` run that ends normally yields exactly `num_steps` states. -/
theorem C66_variable_length (o : OptCfg S R A) (accept : R → M S Bool) (numSteps stuckBuffer : ℤ) (fuel body bursts : ℕ) (s : S)
    (a0 : A) (run : OptRun S R A) (h : o.variableLength accept numSteps stuckBuffer fuel body bursts s = .ok (a0, run))
    (hok : run.status = some (.ok ())) : run.yielded.length = numSteps.toNat := by
  unfold OptCfg.variableLength at h
  rcases hs : o.score o.initial s with ⟨e | a, s1⟩ <;> rw [hs] at h <;> cases h
  have := varBursts_count (by simp) hok
  simpa using this

end

/-! ### Variable length short bursts never change the burst length (C67) -/

section
variable [LinearOrder A]

theorem watchVar_stuck {o : OptCfg S R A} {c : ChainCfg S R} {numSteps : ℤ} {fuel : ℕ} : ∀ {body : ℕ} {ch : Chain S R} {b : R × A}
    {stuck i k : ℕ} {s : S}, ch.counter = some (k + 1) → stuck ≤ k → k + 1 ≤ yields c → NoStop c ch.isValid →
    (o.watchVar c numSteps fuel body ch b stuck i s).2.1 + 1 ≤ yields c ∧
      (o.watchVar c numSteps fuel body ch b stuck i s).1.yielded.length ≤ yields c - (k + 1) ∧
      ((o.watchVar c numSteps fuel body ch b stuck i s).1.status = some (.ok ()) →
        ((o.watchVar c numSteps fuel body ch b stuck i s).2.2 : ℤ) < numSteps →
        (o.watchVar c numSteps fuel body ch b stuck i s).1.yielded.length = yields c - (k + 1)) := by
  intro body
  induction body with
  | zero =>
    intro ch b stuck i k s hc hs hk hns
    exact ⟨by simp only [OptCfg.watchVar]; omega, by simp [OptCfg.watchVar], fun h => by simp [OptCfg.watchVar] at h⟩
  | succ body ih =>
    intro ch b stuck i k s hc hs hk hns
    unfold OptCfg.watchVar
    rcases hn : Chain.next c ch fuel s with _ | ⟨r, ch', s1⟩
    · exact ⟨by simp only; omega, by simp, fun h => by cases h⟩
    obtain ⟨hv, ⟨y, rfl, h2, h3, h4, h5⟩ | ⟨e, rfl, h2, h3, h4⟩⟩ := next_result hc hn
    · simp only
      rcases o.consumer y s1 with ⟨e | u, s2⟩
      · exact ⟨by simp only; omega, by simp only [List.length_cons, List.length_nil]; omega, fun h => by cases h⟩
      simp only
      rcases o.score y s2 with ⟨e | a, s3⟩
      · exact ⟨by simp only; omega, by simp only [List.length_cons, List.length_nil]; omega, fun h => by cases h⟩
      simp only
      have hst : (if isImprovement o.maximize a b.2 then 0 else stuck + 1) ≤ k + 1 := by split <;> omega
      split
      · rename_i hlt
        exact ⟨by simp only; omega, by simp only [List.length_cons, List.length_nil]; omega, fun _ h => by simp only at h; omega⟩
      · obtain ⟨g1, g2, g3⟩ := ih (b := o.update b y a) (i := i + 1) (s := s3) h2 hst h4 (hv ▸ hns)
        refine ⟨g1, ?_, fun h h' => ?_⟩
        · simp only [List.length_cons]; omega
        · have := g3 h h'
          simp only [List.length_cons]
          omega
    · have key : e = .stopIteration → yields c - (k + 1) = 0 := by
        intro he
        by_contra h0
        exact h3 (by omega) hns he
      by_cases he : e = .stopIteration
      · have h0 := key he
        subst he
        exact ⟨by simp only; omega, by simp, fun _ _ => by simp only [List.length_nil]; omega⟩
      · rcases e <;> first
          | exact absurd rfl he
          | exact ⟨by simp only; omega, by simp, fun h => by cases h⟩

/-- One burst that starts at the best state: it is never stuck for `length` states, yields `length` states unless the run ends, and
starts with the best state. -/
theorem burstVar_restart {o : OptCfg S R A} {accept : R → M S Bool} {numSteps : ℤ} {length fuel body : ℕ} {b : R × A} {stuck i : ℕ}
    {s : S} (hl : 1 ≤ length) (hns : NoStop (o.chain accept b.1 length) o.constraints)
    (hdet : ∀ s a s', o.score b.1 s = (.ok a, s') → a = b.2) :
    ((o.burstVar accept numSteps length fuel body b stuck i s).1.status = some (.ok ()) →
      (o.burstVar accept numSteps length fuel body b stuck i s).2.1 < length ∧
      0 < (o.burstVar accept numSteps length fuel body b stuck i s).1.yielded.length ∧
      (((o.burstVar accept numSteps length fuel body b stuck i s).2.2 : ℤ) < numSteps →
        (o.burstVar accept numSteps length fuel body b stuck i s).1.yielded.length = length)) ∧
    (o.burstVar accept numSteps length fuel body b stuck i s).1.yielded.length ≤ length ∧
    (0 < (o.burstVar accept numSteps length fuel body b stuck i s).1.yielded.length →
      (o.burstVar accept numSteps length fuel body b stuck i s).1.yielded.head? = some b.1) := by
  have hy : yields (o.chain accept b.1 length) = length := by simp [yields, OptCfg.chain]; omega
  unfold OptCfg.burstVar
  rcases hi : Chain.init (o.chain accept b.1 length) o.constraints s with ⟨e | ch, s1⟩
  · exact ⟨fun h => (by cases h), by simp, fun h => by simp at h⟩
  have hch : ch = ⟨o.constraints, none, b.1⟩ := by
    unfold Chain.init at hi
    split at hi
    · cases hi
    · simp only [Prod.mk.injEq, Except.ok.injEq] at hi
      exact hi.1.symm
  subst hch
  simp only
  rcases body with _ | body
  · exact ⟨fun h => by simp [OptCfg.watchVar] at h, by simp [OptCfg.watchVar], fun h => by simp [OptCfg.watchVar] at h⟩
  unfold OptCfg.watchVar
  have hn : Chain.next (o.chain accept b.1 length) (Chain.iter (o.chain accept b.1 length) ⟨o.constraints, none, b.1⟩) fuel s1 =
      some (.ok b.1, ⟨o.constraints, some 1, b.1⟩, s1) := rfl
  rw [hn]
  simp only
  rcases o.consumer b.1 s1 with ⟨e | u, s2⟩
  · exact ⟨fun h => (by cases h), by simpa using hl, fun _ => rfl⟩
  simp only
  rcases hsc : o.score b.1 s2 with ⟨e | a, s3⟩
  · exact ⟨fun h => (by cases h), by simpa using hl, fun _ => rfl⟩
  have ha := hdet _ _ _ hsc
  subst ha
  have himp : isImprovement o.maximize b.2 b.2 = true := isImprovement_iff.2 (NoBetter.refl _)
  simp only [himp, if_true]
  split
  · rename_i hlt
    exact ⟨fun _ => ⟨by simp only; omega, by simp, fun h => by simp only at h; omega⟩, by simpa using hl, fun _ => rfl⟩
  · obtain ⟨g1, g2, g3⟩ := watchVar_stuck (o := o) (numSteps := numSteps) (fuel := fuel) (body := body) (b := o.update b b.1 b.2)
      (stuck := 0) (i := i + 1) (k := 0) (s := s3) (c := o.chain accept b.1 length) (ch := ⟨o.constraints, some 1, b.1⟩) rfl le_rfl
      (by omega) hns
    rw [hy] at g1 g2 g3
    refine ⟨fun h => ⟨by simp only; omega, by simp, fun h' => ?_⟩, ?_, fun _ => rfl⟩
    · have := g3 h h'
      simp only [List.length_cons]
      omega
    · simp only [List.length_cons]
      omega

theorem varBursts_restart {o : OptCfg S R A} {accept : R → M S Bool} {numSteps stuckBuffer : ℤ} {fuel body : ℕ} {f : R → A}
    (hns : NoStop (o.chain accept o.initial 2) o.constraints) (hdet : ∀ r s a s', o.score r s = (.ok a, s') → a = f r)
    (hsb : 1 ≤ stuckBuffer) {length : ℕ} (hl : 1 ≤ length) : ∀ {n : ℕ} {b : R × A} {stuck i : ℕ} {s : S}, b.2 = f b.1 →
      ∀ j, j * length < (o.varBursts accept numSteps stuckBuffer fuel body n length b stuck i s).yielded.length →
        (o.varBursts accept numSteps stuckBuffer fuel body n length b stuck i s).yielded[j * length]? =
          some (bestAfter b (o.varBursts accept numSteps stuckBuffer fuel body n length b stuck i s).trace (j * length)).1 := by
  intro n
  induction n with
  | zero => intro b stuck i s _ j h; simp [OptCfg.varBursts] at h
  | succ n ih =>
    intro b stuck i s hb j hj
    unfold OptCfg.varBursts at hj ⊢
    split at hj
    swap
    · simp at hj
    rename_i hlt
    rw [if_pos hlt]
    simp only at hj ⊢
    obtain ⟨g1, g2, g3⟩ := burstVar_restart (o := o) (numSteps := numSteps) (fuel := fuel) (body := body) (b := b) (stuck := stuck)
      (i := i) (s := s) hl ⟨hns.proposal, hns.accept, hns.constraint⟩ (fun s a s' h => (hdet _ _ _ _ h).trans hb.symm)
    have htr := burstVar_tracks o accept numSteps length fuel body b stuck i s
    have hcnt := (burstVar_count (o := o) (accept := accept) (length := length) (fuel := fuel) (body := body) (b := b)
        (stuck := stuck) (s := s) hlt).2.2
    set r := o.burstVar accept numSteps length fuel body b stuck i s with hr
    have base : ∀ (l : List R) (t : List (Snap R A)), (r.1.yielded ++ l)[0]? = some (bestAfter b t 0).1 ∨ r.1.yielded = [] := by
      intro l t
      rcases hy : r.1.yielded with _ | ⟨y, ys⟩
      · exact .inr rfl
      · refine .inl ?_
        have := g3 (by rw [hy]; simp)
        rw [hy] at this
        simp only [List.head?_cons, Option.some.injEq] at this
        simp [bestAfter, this]
    rcases hst : r.1.status with _ | e | u <;> rw [hst] at hj <;> simp only at hj ⊢
    · obtain rfl : j = 0 := by
        by_contra h0
        have : 1 * length ≤ j * length := Nat.mul_le_mul_right _ (by omega)
        omega
      rw [Nat.zero_mul]
      rcases base [] r.1.trace with h | h
      · simpa using h
      · simp [h] at hj
    · obtain rfl : j = 0 := by
        by_contra h0
        have : 1 * length ≤ j * length := Nat.mul_le_mul_right _ (by omega)
        omega
      rw [Nat.zero_mul]
      rcases base [] r.1.trace with h | h
      · simpa using h
      · simp [h] at hj
    obtain ⟨k1, k2, k3⟩ := g1 hst
    have hlen : (if stuckBuffer * (length : ℤ) ≤ (r.2.1 : ℤ) then length * 2 else length) = length := by
      rw [if_neg]
      have : (length : ℤ) ≤ stuckBuffer * length := by nlinarith
      omega
    rw [hlen] at hj ⊢
    simp only [OptRun.append] at hj ⊢
    rcases j with _ | j
    · rw [Nat.zero_mul]
      rcases base _ _ with h | h
      · exact h
      · rw [h] at k2; simp at k2
    rcases lt_or_ge (r.2.2 : ℤ) numSteps with hlt' | hge
    · have hL := k3 hlt'
      have hbest : r.1.best.2 = f r.1.best.1 := by
        have hx := (htr.best [b] ⟨[], [], rfl, by simp, by simp⟩ r.1.trace.length le_rfl).spec.1
        rw [← htr.final] at hx
        rcases List.mem_append.1 hx with hx | hx
        · rw [List.mem_singleton] at hx; rw [hx]; exact hb
        · obtain ⟨x, hx1, hx2⟩ := List.mem_map.1 hx
          obtain ⟨s1, s2, hs⟩ := htr.scores x (List.mem_of_mem_take hx1)
          rw [← hx2]
          exact hdet _ _ _ _ hs
      have hj' : j * length < (o.varBursts accept numSteps stuckBuffer fuel body n length r.1.best r.2.1 r.2.2 r.1.world).yielded.length := by
        rw [List.length_append, hL, Nat.succ_mul] at hj
        omega
      have := ih hbest j hj'
      rw [show (j + 1) * length = length + j * length by ring, List.getElem?_append_right (by omega), hL, Nat.add_sub_cancel_left, this]
      have hT : r.1.trace.length = length := (hcnt hst).symm.trans hL
      conv_rhs => rw [← hT, bestAfter_append, ← htr.final]
      rw [hT]
    · exfalso
      have hnil : (o.varBursts accept numSteps stuckBuffer fuel body n length r.1.best r.2.1 r.2.2 r.1.world).yielded = [] := by
        rcases n with _ | n
        · rfl
        · unfold OptCfg.varBursts
          rw [if_neg (by omega)]
      rw [hnil, List.append_nil] at hj
      have : 1 * length ≤ (j + 1) * length := Nat.mul_le_mul_right _ (by omega)
      omega

/-- **C67 (violation, general form)** `variable_length_short_bursts` never increases the burst length: for every score that is a
function of the state and every `stuck_buffer ≥ 1`, each even position of the run is a restart at the best state so far — all bursts
have length 2, however long there is no improvement.  The reason: the first state of a burst is the best state itself, its score counts
as an improvement (`>=`) and resets `time_stuck`. -/
theorem C67_never_grows (o : OptCfg S R A) (accept : R → M S Bool) (numSteps stuckBuffer : ℤ) (fuel body bursts : ℕ) (s : S) (a0 : A)
    (run : OptRun S R A) (f : R → A) (hns : NoStop (o.chain accept o.initial 2) o.constraints)
    (hdet : ∀ r s a s', o.score r s = (.ok a, s') → a = f r) (hsb : 1 ≤ stuckBuffer)
    (h : o.variableLength accept numSteps stuckBuffer fuel body bursts s = .ok (a0, run)) :
    ∀ j, 2 * j < run.yielded.length → run.yielded[2 * j]? = some (bestAfter (o.initial, a0) run.trace (2 * j)).1 := by
  intro j hj
  unfold OptCfg.variableLength at h
  rcases hs : o.score o.initial s with ⟨e | a, s1⟩ <;> rw [hs] at h <;> cases h
  rw [Nat.mul_comm] at hj ⊢
  exact varBursts_restart hns hdet hsb (by norm_num) (hdet _ _ _ _ hs) j hj

end

/-! ### Acceptance functions (C49) -/

section
open MeasureTheory

/-- how much worse than `b` the score `a` is -/
def lossOf (maximize : Bool) (a b : ℝ) : ℝ := if maximize then b - a else a - b

/-- **C49** Both acceptance functions accept a state without a parent, without looking at scores or drawing a random number. -/
theorem C49_no_parent [LE A] [DecidableLE A] (m : Bool) (parent : R → M S (Option R)) (score : R → M S A) (scoreR : R → M S ℝ) (random : M S ℝ) (p : ℝ)
    (step : R → M S ℤ) (beta : ℤ → Py ℝ) (mag : ℝ) (part : R) (s s1 : S) (hp : parent part s = (.ok none, s1)) :
    tiltedAccept m parent score random p part s = (.ok true, s1) ∧
      annealAccept m parent scoreR random step beta mag part s = (.ok true, s1) := by
  constructor
  · unfold tiltedAccept
    exact (M.bind_ok hp).trans rfl
  · unfold annealAccept
    exact (M.bind_ok hp).trans rfl

/-- **C49** The tilted acceptance function accepts a state at least as good as its parent without a draw, and accepts a worse one
exactly when the draw is below `p`. -/
theorem C49_tilted [LinearOrder A] (m : Bool) (parent : R → M S (Option R)) (score : R → M S A) (random : M S ℝ) (p : ℝ)
    (part q : R) (a b : A) (s s1 s2 s3 : S) (hp : parent part s = (.ok (some q), s1)) (ha : score part s1 = (.ok a, s2))
    (hb : score q s2 = (.ok b, s3)) :
    (NoBetter m b a → tiltedAccept m parent score random p part s = (.ok true, s3)) ∧
      (Worse m a b → ∀ u s4, random s3 = (.ok u, s4) →
        tiltedAccept m parent score random p part s = (.ok (decide (u < p)), s4)) := by
  have h0 : ∀ {r}, (if isImprovement m a b then (pure true : M S Bool) else do let u ← random; pure (decide (u < p))) s3 = r →
      tiltedAccept m parent score random p part s = r := by
    intro r hr
    unfold tiltedAccept
    refine (M.bind_ok hp).trans ?_
    refine (M.bind_ok ha).trans ?_
    refine (M.bind_ok hb).trans ?_
    exact hr
  refine ⟨fun h => h0 ?_, fun h u s4 hu => h0 ?_⟩
  · rw [if_pos (isImprovement_iff.2 h)]
    rfl
  · rw [if_neg (by rw [not_isImprovement_iff.2 h]; simp)]
    exact (M.bind_ok hu).trans rfl

/-- What the annealing acceptance function computes from the scores, beta and the draw. -/
theorem anneal_eq {m : Bool} {parent : R → M S (Option R)} {score : R → M S ℝ} {random : M S ℝ} {step : R → M S ℤ}
    {beta : ℤ → Py ℝ} {mag : ℝ} {part q : R} {a b β u : ℝ} {t : ℤ} {s s1 s2 s3 s4 s5 : S}
    (hp : parent part s = (.ok (some q), s1)) (ha : score part s1 = (.ok a, s2)) (hb : score q s2 = (.ok b, s3))
    (ht : step part s3 = (.ok t, s4)) (hβ : beta t = .ok β) (hu : random s4 = (.ok u, s5)) :
    annealAccept m parent score random step beta mag part s =
      (if 2 ^ 1024 ≤ Real.exp (-(β * mag * lossOf m a b)) then (.error .overflowError, s5)
       else (.ok (decide (u < Real.exp (-(β * mag * lossOf m a b)))), s5)) := by
  unfold annealAccept
  refine (M.bind_ok hp).trans ?_
  refine (M.bind_ok ha).trans ?_
  refine (M.bind_ok hb).trans ?_
  refine (M.bind_ok ht).trans ?_
  refine (M.bind_ok (s := s4) (s' := s4) (a := β) (by unfold M.lift; rw [hβ])).trans ?_
  refine (M.bind_ok hu).trans ?_
  have he : -β * mag * (if m = true then (a - b) * -1 else a - b) = -(β * mag * lossOf m a b) := by
    unfold lossOf
    cases m
    · simp
    · simp only [if_true]; ring
  rw [he]
  unfold mathExp
  split
  · rfl
  · rfl

/-- **C49 (partial)** The annealing acceptance function accepts every state at least as good as its parent, provided `math.exp` does
not overflow; everything when beta is 0; and a state worse by `loss` exactly when the draw is below `exp(-beta·magnitude·loss)`.
Missing: improvements so large that `math.exp` overflows (`C49_overflow_violation`). -/
theorem C49_anneal_partial (m : Bool) (parent : R → M S (Option R)) (score : R → M S ℝ) (random : M S ℝ) (step : R → M S ℤ)
    (beta : ℤ → Py ℝ) (mag : ℝ) (part q : R) (a b β u : ℝ) (t : ℤ) (s s1 s2 s3 s4 s5 : S)
    (hp : parent part s = (.ok (some q), s1)) (ha : score part s1 = (.ok a, s2)) (hb : score q s2 = (.ok b, s3))
    (ht : step part s3 = (.ok t, s4)) (hβ : beta t = .ok β) (hu : random s4 = (.ok u, s5)) (hu1 : u < 1)
    (hβm : 0 ≤ β * mag) :
    (NoBetter m b a → Real.exp (β * mag * |a - b|) < 2 ^ 1024 →
        annealAccept m parent score random step beta mag part s = (.ok true, s5)) ∧
      (β = 0 → annealAccept m parent score random step beta mag part s = (.ok true, s5)) ∧
      (Worse m a b →
        annealAccept m parent score random step beta mag part s = (.ok (decide (u < Real.exp (-(β * mag * |a - b|)))), s5)) := by
  have big : (1 : ℝ) < 2 ^ 1024 := one_lt_pow₀ one_lt_two (by norm_num)
  refine ⟨fun h hov => ?_, fun h => ?_, fun h => ?_⟩
  · have hl : lossOf m a b = -|a - b| := by
      unfold NoBetter at h
      unfold lossOf
      cases m
      · simp only [Bool.false_eq_true, if_false] at h ⊢; rw [abs_of_nonpos (by linarith)]; ring
      · simp only [if_true] at h ⊢; rw [abs_of_nonneg (by linarith)]; ring
    rw [anneal_eq hp ha hb ht hβ hu, hl, mul_neg, neg_neg, if_neg (not_le.2 hov)]
    have : 1 ≤ Real.exp (β * mag * |a - b|) := Real.one_le_exp (mul_nonneg hβm (abs_nonneg _))
    rw [decide_eq_true (lt_of_lt_of_le hu1 this)]
  · rw [anneal_eq hp ha hb ht hβ hu, h]
    simp only [zero_mul, neg_zero, Real.exp_zero]
    rw [if_neg (not_le.2 big), decide_eq_true hu1]
  · have hl : lossOf m a b = |a - b| := by
      unfold Worse at h
      unfold lossOf
      cases m
      · simp only [Bool.false_eq_true, if_false] at h ⊢; rw [abs_of_pos (by linarith)]
      · simp only [if_true] at h ⊢; rw [abs_of_neg (by linarith)]; ring
    rw [anneal_eq hp ha hb ht hβ hu, hl, if_neg (not_le.2 (lt_of_le_of_lt _ big))]
    rw [Real.exp_le_one_iff]
    have := mul_nonneg hβm (abs_nonneg (a - b))
    linarith

/-- **C49** With a draw uniform on `[0, 1)` a worse state is accepted with probability `p` (tilted; 0 when `p` is negative). -/
theorem C49_tilted_probability [LinearOrder A] (m : Bool) (parent : R → M S (Option R)) (score : R → M S A) (p : ℝ) (hp1 : p ≤ 1)
    (part q : R) (a b : A) (s s1 s2 s3 : S) (hp : parent part s = (.ok (some q), s1)) (ha : score part s1 = (.ok a, s2))
    (hb : score q s2 = (.ok b, s3)) (h : Worse m a b) :
    volume {u : ℝ | u ∈ Set.Ico 0 1 ∧ (tiltedAccept m parent score (pure u) p part s).1 = .ok true} = ENNReal.ofReal p := by
  have : {u : ℝ | u ∈ Set.Ico 0 1 ∧ (tiltedAccept m parent score (pure u) p part s).1 = .ok true} = Set.Ico 0 p := by
    ext u
    have := (C49_tilted m parent score (pure u) p part q a b s s1 s2 s3 hp ha hb).2 h u s3 rfl
    simp only [Set.mem_setOf_eq, this, Except.ok.injEq, decide_eq_true_eq, Set.mem_Ico]
    exact ⟨fun h => ⟨h.1.1, h.2⟩, fun h => ⟨⟨h.1, lt_of_lt_of_le h.2 hp1⟩, h.2⟩⟩
  rw [this, Real.volume_Ico, sub_zero]

/-- **C49** With a draw uniform on `[0, 1)` annealing accepts a worse state with probability `exp(-beta·magnitude·loss)`. -/
theorem C49_anneal_probability (m : Bool) (parent : R → M S (Option R)) (score : R → M S ℝ) (step : R → M S ℤ)
    (beta : ℤ → Py ℝ) (mag : ℝ) (part q : R) (a b β : ℝ) (t : ℤ) (s s1 s2 s3 s4 : S)
    (hp : parent part s = (.ok (some q), s1)) (ha : score part s1 = (.ok a, s2)) (hb : score q s2 = (.ok b, s3))
    (ht : step part s3 = (.ok t, s4)) (hβ : beta t = .ok β) (hβm : 0 ≤ β * mag) (h : Worse m a b) :
    volume {u : ℝ | u ∈ Set.Ico 0 1 ∧ (annealAccept m parent score (pure u) step beta mag part s).1 = .ok true} =
      ENNReal.ofReal (Real.exp (-(β * mag * |a - b|))) := by
  have hle : Real.exp (-(β * mag * |a - b|)) ≤ 1 := by
    rw [Real.exp_le_one_iff]
    have := mul_nonneg hβm (abs_nonneg (a - b))
    linarith
  have : {u : ℝ | u ∈ Set.Ico 0 1 ∧ (annealAccept m parent score (pure u) step beta mag part s).1 = .ok true} =
      Set.Ico 0 (Real.exp (-(β * mag * |a - b|))) := by
    ext u
    simp only [Set.mem_setOf_eq, Set.mem_Ico]
    constructor
    · rintro ⟨⟨h0, h1⟩, h2⟩
      rw [(C49_anneal_partial m parent score (pure u) step beta mag part q a b β u t s s1 s2 s3 s4 s4 hp ha hb ht hβ rfl h1 hβm).2.2 h] at h2
      simpa [h0] using h2
    · rintro ⟨h0, h1⟩
      have h1' := lt_of_lt_of_le h1 hle
      rw [(C49_anneal_partial m parent score (pure u) step beta mag part q a b β u t s s1 s2 s3 s4 s4 hp ha hb ht hβ rfl h1' hβm).2.2 h]
      simpa [h0, h1'] using h1
  rw [this, Real.volume_Ico, sub_zero]

/-- **C49 (violation)** An improvement of 1024 at full beta raises `OverflowError` for every draw instead of being accepted. -/
theorem C49_overflow_violation : ∃ (score : Bool → M Unit ℝ) (beta : ℤ → Py ℝ), ∀ u : ℝ,
    NoBetter true (0 : ℝ) 1024 ∧ score true () = (.ok 1024, ()) ∧ score false () = (.ok 0, ()) ∧ beta 1 = .ok 1 ∧
      annealAccept true (fun r => pure (if r then some false else none)) score (pure u) (fun _ => pure 1) beta 1 true () =
        (.error .overflowError, ()) := by
  refine ⟨fun r => pure (if r then 1024 else 0), fun _ => .ok 1, fun u => ⟨by simp [NoBetter], rfl, rfl, rfl, ?_⟩⟩
  refine (anneal_eq (q := false) (a := 1024) (b := 0) (β := 1) (u := u) (t := 1) (s1 := ()) (s2 := ()) (s3 := ()) (s4 := ()) (s5 := ())
    rfl rfl rfl rfl rfl rfl).trans ?_
  rw [if_pos]
  have h2 : (2 : ℝ) ≤ Real.exp 1 := by
    have := Real.add_one_le_exp (1 : ℝ)
    linarith
  have h3 : Real.exp (-(1 * 1 * lossOf true 1024 0)) = Real.exp 1 ^ 1024 := by
    rw [← Real.exp_nat_mul]
    congr 1
    simp [lossOf]
  rw [h3]
  exact pow_le_pow_left₀ (by norm_num) h2 1024

end

/-! ### Examples -/

/-- A run on numbers: the world is the list of draws, a proposal adds the next draw, multiples of 3 are not allowed, the score of
`r` is the distance from 10. -/
def exOpt : OptCfg (List ℤ) ℤ ℤ where
  proposal st s := (.ok (st + s.headD 1), s.tail)
  constraints := [⟨fun r s => (.ok (.bool (r % 3 != 0)), s), some "not_multiple_of_3"⟩]
  erase _ s := s
  initial := 1
  score r s := (.ok |r - 10|, s)
  maximize := false
  consumer _ s := (.ok (), s)

/-- three bursts of three states; the third one starts at 8, not at the last state -/
example : (exOpt.shortBursts (fun _ s => (.ok true, s)) 3 3 20 20 [3, 3, 1, 6, 6, 6]).toOption.map
      (fun x => (x.1, x.2.status, x.2.yielded, x.2.best)) =
    some (9, some (.ok ()), [1, 4, 7, 7, 8, 14, 8, 14, 20], (8, 2)) := by
  decide +kernel

example : (exOpt.shortBursts (fun _ s => (.ok true, s)) 3 3 20 20 [3, 3, 1, 6, 6, 6]).toOption.map (fun x => x.2.trace.map Snap.best) =
    some [(1, 9), (4, 6), (7, 3), (7, 3), (8, 2), (8, 2), (8, 2), (8, 2), (8, 2)] := by
  decide +kernel

example : NoStop (exOpt.chain (fun _ s => (.ok true, s)) exOpt.initial 3) exOpt.constraints :=
  ⟨fun _ _ _ h => by simp [exOpt, OptCfg.chain] at h, fun _ _ _ h => by simp [OptCfg.chain] at h, fun con hc _ _ _ h => by
    simp only [exOpt, List.mem_singleton] at hc
    subst hc
    simp at h⟩

/-- a single run that gets worse at the end -/
example : (exOpt.singleRun (fun _ s => (.ok true, s)) 5 20 20 [3, 3, 1, 6, 7, 6]).toOption.map
      (fun x => (x.1, x.2.status, x.2.yielded, x.2.best)) = some (9, some (.ok ()), [1, 4, 7, 8, 14], (8, 2)) := by
  decide +kernel

/-- bursts of 2, 2, 2, … states, cut off after seven -/
example : (exOpt.variableLength (fun _ s => (.ok true, s)) 7 1 20 20 20 [3, 3, 7, 7, 7, 7]).toOption.map
      (fun x => (x.1, x.2.status, x.2.yielded, x.2.best)) = some (9, some (.ok ()), [1, 4, 4, 7, 7, 14, 7], (7, 3)) := by
  decide +kernel

/-- The C67 hypotheses are met. -/
example : ∀ r s a s', exOpt.score r s = (.ok a, s') → a = |r - 10| := fun r s a s' h => by
  simp only [exOpt, Prod.mk.injEq, Except.ok.injEq] at h
  exact h.1.symm

/-- **C67 (violation)** A run whose states never beat the initial one: after `stuck_buffer = 1` bursts of length 2 without improvement
the next burst should have 4 states (0, 1, 2, 4); all bursts keep length 2. -/
theorem C67_violation : ∃ o : OptCfg (List ℤ) ℤ ℤ, ∃ run,
    o.variableLength (fun _ s => (.ok true, s)) 10 1 20 20 20 [] = .ok (0, run) ∧ run.status = some (.ok ()) ∧
      run.yielded = [0, 1, 0, 1, 0, 1, 0, 1, 0, 1] ∧ o.maximize = false ∧ (∀ r s, o.score r s = (.ok r, s)) ∧
      ∀ r s, o.proposal r s = (.ok (r + 1), s) := by
  refine ⟨{ exOpt with initial := 0, constraints := [], score := fun r s => (.ok r, s), proposal := fun r s => (.ok (r + 1), s) },
    _, rfl, ?_, ?_, rfl, fun _ _ => rfl, fun _ _ => rfl⟩ <;> decide +kernel

/-- The hypotheses of the C49 theorems are met: state `true` has parent `false`, scores 3 and 5, draw 1/2. -/
example : (annealAccept (S := Unit) true (fun r => pure (if r then some false else none)) (fun r => pure (if r then 3 else 5)) (pure (1 / 2))
    (fun _ => pure 1) (fun _ => .ok (1 : ℝ)) 1 true ()).1 = .ok (decide ((1 / 2 : ℝ) < Real.exp (-(1 * 1 * |3 - 5|)))) := by
  refine (congrArg Prod.fst ((C49_anneal_partial true _ _ _ _ _ 1 true false 3 5 1 (1 / 2) 1 () () () () () () rfl rfl rfl rfl rfl rfl
    (by norm_num) (by norm_num)).2.2 ?_)).trans rfl
  simp only [Worse, if_true]
  norm_num

/-- scores that may be NaN: `none` compares false with everything, like a python float NaN -/
structure NanScore where
  val : Option ℤ
  deriving DecidableEq

instance : LE NanScore := ⟨fun a b => ∃ x y, a.val = some x ∧ b.val = some y ∧ x ≤ y⟩

instance : DecidableLE NanScore := fun a b =>
  match ha : a.val, hb : b.val with
  | some x, some y => if h : x ≤ y then .isTrue ⟨x, y, ha, hb, h⟩ else .isFalse (by
      rintro ⟨x', y', h1, h2, h3⟩
      rw [ha] at h1; rw [hb] at h2
      cases h1; cases h2
      exact h h3)
  | none, _ => .isFalse (by rintro ⟨x', y', h1, -⟩; rw [ha] at h1; cases h1)
  | some _, none => .isFalse (by rintro ⟨x', y', -, h2, -⟩; rw [hb] at h2; cases h2)

/-- **C47 (remark)** Why C47 asks for totally ordered scores: a NaN score of the initial partition is never replaced, though every
other state has a number as score. -/
theorem C47_nan_remark : ∃ o : OptCfg (List ℤ) ℤ NanScore, ∃ run,
    o.singleRun (fun _ s => (.ok true, s)) 3 20 20 [3, 3] = .ok (⟨none⟩, run) ∧ run.status = some (.ok ()) ∧
      run.trace.map (fun x => x.score.val) = [none, some 6, some 3] ∧ run.best = (1, ⟨none⟩) := by
  refine ⟨{ exOpt with score := fun r s => (.ok ⟨if r = 1 then none else some |r - 10|⟩, s) }, _, rfl, ?_, ?_, ?_⟩ <;> decide +kernel

end GC

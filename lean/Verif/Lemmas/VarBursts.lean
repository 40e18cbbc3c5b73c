import Verif.Lemmas.BurstLaw
import Verif.Props.Optimizer

/-!
# `variable_length_short_bursts` and `short_bursts`

Each burst of `variable_length_short_bursts` (optimization/optimization.py:509-570) begins with the best partition, whose score counts as an improvement and resets
`time_stuck`; so all bursts keep their length 2 (C67).  Here a burst of it is compared with a burst of `short_bursts` (376-425) with `burst_length=2`.
-/

set_option linter.unusedSectionVars false
set_option autoImplicit false

namespace GC

variable {S R A : Type} [LinearOrder A]

/-- The second step of a burst of two: it does not raise `StopIteration`, and leads from good states to good states. -/
structure StepsOn (o : OptCfg S R A) (accept : R → M S Bool) (fuel : ℕ) (Good : R → Prop) : Prop where
  stop : ∀ x, Good x → ∀ s ch' s', Chain.loop (o.chain accept x (2 : ℕ)) ⟨o.constraints, some 1, x⟩ 1 fuel s ≠ some (.error .stopIteration, ch', s')
  good : ∀ x, Good x → ∀ s y ch' s', Chain.loop (o.chain accept x (2 : ℕ)) ⟨o.constraints, some 1, x⟩ 1 fuel s = some (.ok y, ch', s') → Good y

theorem stepsOn_noStop {o : OptCfg S R A} {accept : R → M S Bool} (h : NoStop (o.chain accept o.initial 2) o.constraints) (fuel : ℕ) :
    StepsOn o accept fuel (fun _ => True) where
  stop := fun x _ s ch' s' hl => by
    obtain ⟨-, ⟨y, h1, -⟩ | ⟨e, h1, -, h3, -⟩⟩ := loop_result hl
    · cases h1
    · exact h3 (by simp [OptCfg.chain]) ⟨h.proposal, h.accept, h.constraint⟩ (Except.error.inj h1).symm
  good := fun _ _ _ _ _ _ _ => trivial

variable {o : OptCfg S R A} {accept : R → M S Bool} {f : R → A} {Good : R → Prop}

/-- the score of the best state -/
theorem update_det {b : R × A} (hb : b.2 = f b.1) {y : R} {a : A} (ha : a = f y) : (o.update b y a).2 = f (o.update b y a).1 := by
  unfold OptCfg.update
  split_ifs
  · exact ha
  · exact hb

/-- a burst of `variable_length_short_bursts` with room for two more states -/
theorem burstVar_two {fuel : ℕ} (hg : StepsOn o accept (fuel + 1) Good) (hdet : ∀ r s a s', o.score r s = (.ok a, s') → a = f r) (body : ℕ) {numSteps : ℤ}
    {b : R × A} (hbg : Good b.1) (hb : b.2 = f b.1) (stuck i : ℕ) (hi : ((i + 2 : ℕ) : ℤ) ≤ numSteps) (s : S) :
    ∃ st j : ℕ, o.burstVar accept numSteps 2 (fuel + 1) (body + 3) b stuck i s = (o.burst accept (2 : ℕ) (fuel + 1) (body + 3) b s, st, j) ∧
      ((o.burst accept (2 : ℕ) (fuel + 1) (body + 3) b s).status = some (.ok ()) → j = i + 2 ∧ st ≤ 1 ∧
        Good (o.burst accept (2 : ℕ) (fuel + 1) (body + 3) b s).best.1 ∧
        (o.burst accept (2 : ℕ) (fuel + 1) (body + 3) b s).best.2 = f (o.burst accept (2 : ℕ) (fuel + 1) (body + 3) b s).best.1) := by
  unfold OptCfg.burstVar OptCfg.burst
  rcases hin : Chain.init (o.chain accept b.1 (2 : ℕ)) o.constraints s with ⟨e | ch, s1⟩
  · exact ⟨stuck, i, rfl, fun h => by cases h⟩
  have hch : ch = ⟨o.constraints, none, b.1⟩ := by
    unfold Chain.init at hin
    split at hin
    · cases hin
    · simp only [Prod.mk.injEq, Except.ok.injEq] at hin
      exact hin.1.symm
  subst hch
  simp only
  have hn : Chain.next (o.chain accept b.1 (2 : ℕ)) (Chain.iter (o.chain accept b.1 (2 : ℕ)) ⟨o.constraints, none, b.1⟩) (fuel + 1) s1 =
      some (.ok b.1, ⟨o.constraints, some 1, b.1⟩, s1) := rfl
  rw [OptCfg.watchVar, OptCfg.watch, hn]
  simp only
  rcases o.consumer b.1 s1 with ⟨e | u, s2⟩
  · exact ⟨stuck, i, rfl, fun h => by cases h⟩
  simp only
  rcases hsc : o.score b.1 s2 with ⟨e | a, s3⟩
  · exact ⟨stuck, i, rfl, fun h => by cases h⟩
  have ha : a = b.2 := (hdet _ _ _ _ hsc).trans hb.symm
  subst ha
  have himp : isImprovement o.maximize b.2 b.2 = true := isImprovement_iff.2 (NoBetter.refl _)
  have hup : o.update b b.1 b.2 = b := by unfold OptCfg.update; rw [himp, if_pos rfl]
  simp only [himp, if_true, hup]
  rw [if_neg (by push_cast at hi ⊢; omega), OptCfg.watchVar, OptCfg.watch]
  have hn2 : Chain.next (o.chain accept b.1 (2 : ℕ)) ⟨o.constraints, some 1, b.1⟩ (fuel + 1) s3 =
      Chain.loop (o.chain accept b.1 (2 : ℕ)) ⟨o.constraints, some 1, b.1⟩ 1 (fuel + 1) s3 := rfl
  rw [hn2]
  rcases hl : Chain.loop (o.chain accept b.1 (2 : ℕ)) ⟨o.constraints, some 1, b.1⟩ 1 (fuel + 1) s3 with _ | ⟨r, ch', s4⟩
  · exact ⟨0, i + 1, rfl, fun h => by cases h⟩
  rcases r with e | y
  · have hne : e ≠ .stopIteration := fun he => hg.stop _ hbg _ _ _ (he ▸ hl)
    rcases e <;> first
      | exact absurd rfl hne
      | exact ⟨0, i + 1, rfl, fun h => by cases h⟩
  have hy : Good y := hg.good _ hbg _ _ _ _ hl
  obtain ⟨-, ⟨_, -, hcnt, -, -⟩ | ⟨_, h1, -⟩⟩ := loop_result hl
  swap
  · cases h1
  simp only
  rcases o.consumer y s4 with ⟨e | u, s5⟩
  · exact ⟨0, i + 1, rfl, fun h => by cases h⟩
  simp only
  rcases hsc2 : o.score y s5 with ⟨e | a, s6⟩
  · exact ⟨0, i + 1, rfl, fun h => by cases h⟩
  have ha := hdet _ _ _ _ hsc2
  have hn3 : Chain.next (o.chain accept b.1 (2 : ℕ)) ch' (fuel + 1) s6 = some (.error .stopIteration, ch', s6) := by
    unfold Chain.next
    rw [hcnt]
    simp only
    rw [Chain.loop, if_neg (by simp [OptCfg.chain])]
  have hgu : Good (o.update b y a).1 := by
    unfold OptCfg.update
    split_ifs
    · exact hy
    · exact hbg
  have hup2 := update_det (o := o) hb ha
  have hst : (if isImprovement o.maximize a b.2 = true then 0 else 0 + 1) ≤ 1 := by split_ifs <;> omega
  refine ⟨(if isImprovement o.maximize a b.2 = true then 0 else 0 + 1), i + 2, ?_, ?_⟩
  · simp only
    rw [OptCfg.watch, hn3]
    by_cases hlast : numSteps ≤ ((i + 1 + 1 : ℕ) : ℤ)
    · rw [if_pos hlast]
    · rw [if_neg hlast, OptCfg.watchVar, hn3]
  · intro _
    simp only
    rw [OptCfg.watch, hn3]
    exact ⟨trivial, hst, hgu, hup2⟩

theorem append_assoc (r1 r2 r3 : OptRun S R A) : (r1.append r2).append r3 = r1.append (r2.append r3) := by
  simp [OptRun.append, List.append_assoc]

/-- the first `num` bursts of `variable_length_short_bursts` are `short_bursts` with `burst_length=2` -/
theorem varBursts_split {fuel : ℕ} (hg : StepsOn o accept (fuel + 1) Good) (hdet : ∀ r s a s', o.score r s = (.ok a, s') → a = f r) (body : ℕ) {numSteps stuckBuffer : ℤ}
    (hsb : 1 ≤ stuckBuffer) : ∀ (num n : ℕ) (b : R × A), Good b.1 → b.2 = f b.1 → ∀ (stuck i : ℕ), ((i + 2 * num : ℕ) : ℤ) ≤ numSteps → ∀ s : S,
      ((o.bursts accept (2 : ℕ) (fuel + 1) (body + 3) num b s).status = some (.ok ()) →
        Good (o.bursts accept (2 : ℕ) (fuel + 1) (body + 3) num b s).best.1 ∧
        (o.bursts accept (2 : ℕ) (fuel + 1) (body + 3) num b s).best.2 = f (o.bursts accept (2 : ℕ) (fuel + 1) (body + 3) num b s).best.1 ∧
        ∃ st, o.varBursts accept numSteps stuckBuffer (fuel + 1) (body + 3) (num + n) 2 b stuck i s =
          (o.bursts accept (2 : ℕ) (fuel + 1) (body + 3) num b s).append (o.varBursts accept numSteps stuckBuffer (fuel + 1) (body + 3) n 2
            (o.bursts accept (2 : ℕ) (fuel + 1) (body + 3) num b s).best st (i + 2 * num) (o.bursts accept (2 : ℕ) (fuel + 1) (body + 3) num b s).world)) ∧
      ((o.bursts accept (2 : ℕ) (fuel + 1) (body + 3) num b s).status ≠ some (.ok ()) →
        o.varBursts accept numSteps stuckBuffer (fuel + 1) (body + 3) (num + n) 2 b stuck i s = o.bursts accept (2 : ℕ) (fuel + 1) (body + 3) num b s) := by
  intro num
  induction num with
  | zero =>
    intro n b hbg hb stuck i hi s
    refine ⟨fun _ => ⟨hbg, hb, stuck, ?_⟩, fun h => absurd rfl h⟩
    rw [Nat.zero_add]
    rfl
  | succ num ih =>
    intro n b hbg hb stuck i hi s
    obtain ⟨st, j, he, hok⟩ := burstVar_two hg hdet body hbg hb stuck i (by push_cast at hi ⊢; omega) s (numSteps := numSteps)
    have hv : o.varBursts accept numSteps stuckBuffer (fuel + 1) (body + 3) (num + 1 + n) 2 b stuck i s =
        match (o.burst accept (2 : ℕ) (fuel + 1) (body + 3) b s).status with
        | some (.ok ()) => (o.burst accept (2 : ℕ) (fuel + 1) (body + 3) b s).append (o.varBursts accept numSteps stuckBuffer (fuel + 1) (body + 3) (num + n)
            (if stuckBuffer * ((2 : ℕ) : ℤ) ≤ (st : ℤ) then 2 * 2 else 2) (o.burst accept (2 : ℕ) (fuel + 1) (body + 3) b s).best st j
            (o.burst accept (2 : ℕ) (fuel + 1) (body + 3) b s).world)
        | _ => o.burst accept (2 : ℕ) (fuel + 1) (body + 3) b s := by
      rw [show num + 1 + n = (num + n) + 1 by omega, OptCfg.varBursts, if_pos (by push_cast at hi ⊢; omega), he]
      rfl
    rw [hv]
    rw [OptCfg.bursts]
    generalize hr : o.burst accept (2 : ℕ) (fuel + 1) (body + 3) b s = r at hok ⊢
    rcases hst : r.status with _ | e | ⟨⟨⟩⟩
    · refine ⟨fun h => ?_, fun _ => ?_⟩
      · simp only [hst] at h
        cases h
      · rfl
    · refine ⟨fun h => ?_, fun _ => ?_⟩
      · simp only [hst] at h
        cases h
      · rfl
    · obtain ⟨rfl, h1, h2, h3⟩ := hok hst
      have hlen : (if stuckBuffer * ((2 : ℕ) : ℤ) ≤ (st : ℤ) then 2 * 2 else 2) = 2 := by
        rw [if_neg]
        push_cast
        omega
      rw [hlen]
      simp only
      obtain ⟨g1, g2⟩ := ih n r.best h2 h3 st (i + 2) (by push_cast at hi ⊢; omega) r.world
      refine ⟨fun h => ?_, fun h => ?_⟩
      · obtain ⟨k1, k2, st', k3⟩ := g1 h
        refine ⟨k1, k2, st', ?_⟩
        rw [k3, ← append_assoc, show i + 2 + 2 * num = i + 2 * (num + 1) by ring]
        rfl
      · rw [g2 h]

/-- … and with an even number of steps that is all -/
theorem varBursts_even {fuel : ℕ} (hg : StepsOn o accept (fuel + 1) Good) (hdet : ∀ r s a s', o.score r s = (.ok a, s') → a = f r) (body : ℕ) {stuckBuffer : ℤ}
    (hsb : 1 ≤ stuckBuffer) (num n : ℕ) (hn : num < n) {b : R × A} (hbg : Good b.1) (hb : b.2 = f b.1) (s : S) :
    o.varBursts accept (2 * num : ℕ) stuckBuffer (fuel + 1) (body + 3) n 2 b 0 0 s = o.bursts accept (2 : ℕ) (fuel + 1) (body + 3) num b s := by
  obtain ⟨n, rfl⟩ : ∃ m, n = num + (m + 1) := ⟨n - num - 1, by omega⟩
  obtain ⟨g1, g2⟩ := varBursts_split hg hdet body hsb num (n + 1) b hbg hb 0 0 (numSteps := (2 * num : ℕ)) (by omega) s
  by_cases h : (o.bursts accept (2 : ℕ) (fuel + 1) (body + 3) num b s).status = some (.ok ())
  · obtain ⟨-, -, st, h3⟩ := g1 h
    rw [h3, OptCfg.varBursts, if_neg (by omega)]
    unfold OptRun.append
    simp only [List.append_nil]
    rw [← h]
  · exact g2 h

/-- with an odd number of steps the best state is handed out once more -/
theorem varBursts_odd {fuel : ℕ} (hg : StepsOn o accept (fuel + 1) Good) (hdet : ∀ r s a s', o.score r s = (.ok a, s') → a = f r) (body : ℕ) {stuckBuffer : ℤ}
    (hpure : ∀ x, Good x → ∀ s, o.score x s = (.ok (f x), s) ∧ o.consumer x s = (.ok (), s) ∧ validator x o.constraints s = (.ok true, s))
    (hsb : 1 ≤ stuckBuffer) (num n : ℕ) (hn : num + 1 < n) {b : R × A} (hbg : Good b.1) (hb : b.2 = f b.1) (s : S) :
    o.varBursts accept (2 * num + 1 : ℕ) stuckBuffer (fuel + 1) (body + 3) n 2 b 0 0 s =
      (if (o.bursts accept (2 : ℕ) (fuel + 1) (body + 3) num b s).status = some (.ok ()) then
        (o.bursts accept (2 : ℕ) (fuel + 1) (body + 3) num b s).append ⟨some (.ok ()), [(o.bursts accept (2 : ℕ) (fuel + 1) (body + 3) num b s).best.1],
          [⟨(o.bursts accept (2 : ℕ) (fuel + 1) (body + 3) num b s).best.1, (o.bursts accept (2 : ℕ) (fuel + 1) (body + 3) num b s).best.2,
            (o.bursts accept (2 : ℕ) (fuel + 1) (body + 3) num b s).best⟩], (o.bursts accept (2 : ℕ) (fuel + 1) (body + 3) num b s).best,
          (o.bursts accept (2 : ℕ) (fuel + 1) (body + 3) num b s).world⟩
      else o.bursts accept (2 : ℕ) (fuel + 1) (body + 3) num b s) := by
  obtain ⟨n, rfl⟩ : ∃ m, n = num + (m + 2) := ⟨n - num - 2, by omega⟩
  obtain ⟨g1, g2⟩ := varBursts_split hg hdet body hsb num (n + 2) b hbg hb 0 0 (numSteps := (2 * num + 1 : ℕ)) (by push_cast; omega) s
  generalize o.bursts accept (2 : ℕ) (fuel + 1) (body + 3) num b s = r at g1 g2 ⊢
  by_cases h : r.status = some (.ok ())
  · rw [if_pos h]
    obtain ⟨h1, h2, st, h3⟩ := g1 h
    rw [h3]
    congr 1
    obtain ⟨p1, p2, p3⟩ := hpure _ h1 r.world
    have himp : isImprovement o.maximize r.best.2 r.best.2 = true := isImprovement_iff.2 (NoBetter.refl _)
    have hup : o.update r.best r.best.1 r.best.2 = r.best := by unfold OptCfg.update; rw [himp, if_pos rfl]
    have hin : Chain.init (o.chain accept r.best.1 ((2 : ℕ) : ℤ)) o.constraints r.world = (.ok ⟨o.constraints, none, r.best.1⟩, r.world) := by
      unfold Chain.init checkInitial
      have e : (o.chain accept r.best.1 ((2 : ℕ) : ℤ)).initial = r.best.1 := rfl
      rw [e, p3]
    have hn : Chain.next (o.chain accept r.best.1 (2 : ℕ)) (Chain.iter (o.chain accept r.best.1 (2 : ℕ)) ⟨o.constraints, none, r.best.1⟩) (fuel + 1) r.world =
        some (.ok r.best.1, ⟨o.constraints, some 1, r.best.1⟩, r.world) := rfl
    have hbv : o.burstVar accept (2 * num + 1 : ℕ) 2 (fuel + 1) (body + 3) r.best st (0 + 2 * num) r.world =
        (⟨some (.ok ()), [r.best.1], [⟨r.best.1, r.best.2, r.best⟩], r.best, r.world⟩, 0, 0 + 2 * num + 1) := by
      unfold OptCfg.burstVar
      rw [hin]
      simp only
      rw [OptCfg.watchVar, hn]
      simp only
      rw [p2]
      simp only
      rw [p1, ← h2]
      simp only [himp, if_true, hup]
      rw [if_pos (by push_cast; omega)]
    rw [OptCfg.varBursts, if_pos (by push_cast; omega), hbv]
    simp only
    have hlen : (if stuckBuffer * ((2 : ℕ) : ℤ) ≤ ((0 : ℕ) : ℤ) then 2 * 2 else 2) = 2 := by
      rw [if_neg]
      push_cast
      omega
    rw [hlen, OptCfg.varBursts, if_neg (by push_cast; omega)]
    rfl
  · rw [if_neg h]
    exact g2 h

end GC

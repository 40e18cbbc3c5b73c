import Verif.Model.OptRuns
import Verif.Props.Optimizer

/-!
# A run of the optimizer used in a single `for` loop (C101)

`Verif/Model/Optimizer.lean` describes a run from its start to its end, `Verif/Model/OptRuns.lean` a generator that is resumed at each
`next`.  When a `for` loop consumes the generator and nobody else touches the optimizer, both agree: the states handed out, the way the
loop ends, the attributes of the optimizer and the world.  So what has been proved about whole runs (C47, C66, C67) holds for the generators.
-/

set_option linter.unusedSectionVars false
set_option autoImplicit false

namespace GC

variable {S R A : Type} [LE A] [DecidableLE A]

/-- What a `for` loop over a generator has done: how it ended (`none`: not within the bounds), the states it was handed, the attributes of the
optimizer and the world. -/
structure Driven (S R A : Type) where
  status : Option (Py Unit)
  yielded : List R
  best : BestAttr R A
  world : S

/-- the states `l` before those of `d` -/
def Driven.before (l : List R) (d : Driven S R A) : Driven S R A := { d with yielded := l ++ d.yielded }

/-- What a `for` loop does with the outcome of `next`: it ends with `StopIteration`, hands on exceptions, runs its body (`consumer`) for a
state and goes on with `go`. -/
def onward (o : OptCfg S R A) (go : OptGen S R → BestAttr R A → S → Driven S R A) (b0 : BestAttr R A) (s0 : S) : Resumed S R A → Driven S R A
  | none => ⟨none, [], b0, s0⟩
  | some (.stops, _, b, s) => ⟨some (.ok ()), [], b, s⟩
  | some (.raises e, _, b, s) => ⟨some (.error e), [], b, s⟩
  | some (.yields part, g, b, s) =>
    match o.consumer part s with
    | (.error e, s1) => ⟨some (.error e), [part], b, s1⟩
    | (.ok (), s1) => (go g b s1).before [part]

/-- `for part in run: consumer(part)`, with at most `n` calls of `next` (the protocol of python's `for` applied to
gerrychain/optimization/optimization.py:376-607) -/
def drive (o : OptCfg S R A) (fuel : ℕ) : ℕ → OptGen S R → BestAttr R A → S → Driven S R A
  | 0, _, b, s => ⟨none, [], b, s⟩
  | n + 1, g, b, s => onward o (drive o fuel n) b s (resume o fuel g b s)

/-- the attributes holding a plan and a score -/
def known (b : R × A) : BestAttr R A := ⟨some b.1, some b.2⟩

/-- the whole run as seen by the loop -/
def OptRun.seen (r : OptRun S R A) : Driven S R A := ⟨r.status, r.yielded, known r.best, r.world⟩

theorem before_nil (d : Driven S R A) : d.before [] = d := rfl

theorem before_before (l l' : List R) (d : Driven S R A) : (d.before l').before l = d.before (l ++ l') := by
  unfold Driven.before
  simp

/-- the bounds do not matter for a resumption that came to an end -/
theorem onward_some (o : OptCfg S R A) (go : OptGen S R → BestAttr R A → S → Driven S R A) (b0 b0' : BestAttr R A) (s0 s0' : S) {x : Resumed S R A}
    (h : x ≠ none) : onward o go b0 s0 x = onward o go b0' s0' x := by
  rcases x with _ | ⟨_ | _ | _, _, _, _⟩
  · exact absurd rfl h
  · rfl
  · rfl
  · rfl

/-- scoring a state when the attributes hold a plan and a score -/
theorem process_known (o : OptCfg S R A) (best : R × A) (part : R) (s : S) : process o (known best) part s = match o.score part s with
    | (.error e, s1) => (.error (genErr e), known best, s1)
    | (.ok a, s1) => (.ok (isImprovement o.maximize a best.2), known (o.update best part a), s1) := by
  unfold process
  rcases o.score part s with ⟨_ | a, s1⟩
  · rfl
  · simp only [known, OptCfg.update]
    split_ifs with h
    · simp [h]
    · simp only [Bool.not_eq_true] at h
      simp [h]

/-! ### A chain with a plain loop body -/

/-- how a resumption goes on in the plain loops: score the state handed out before, ask the chain for another one -/
def PlainLoop (o : OptCfg S R A) (fuel : ℕ) (c : ChainCfg S R) (wait : Chain S R → R → OptGen S R) (aft : BestAttr R A → S → Resumed S R A) : Prop :=
  ∀ ch part b s, resume o fuel (wait ch part) b s = match process o b part s with
    | (.error e, b1, s1) => some (.raises e, .finished, b1, s1)
    | (.ok _, b1, s1) => advance c ch fuel b1 s1 wait (aft b1)

theorem drive_watch {o : OptCfg S R A} {fuel : ℕ} {c : ChainCfg S R} {wait : Chain S R → R → OptGen S R} {aft : BestAttr R A → S → Resumed S R A}
    (hloop : PlainLoop o fuel c wait aft) : ∀ (body : ℕ) (ch : Chain S R) (best : R × A) (s : S) (st : Py Unit),
    (o.watch c fuel body ch best s).status = some st → ∀ (n : ℕ) (b0 : BestAttr R A) (s0 : S), (o.watch c fuel body ch best s).yielded.length ≤ n →
    ∃ b0' s0', onward o (drive o fuel n) b0 s0 (advance c ch fuel (known best) s wait (aft (known best))) = match st with
      | .ok () => (onward o (drive o fuel (n - (o.watch c fuel body ch best s).yielded.length)) b0' s0'
          (aft (known (o.watch c fuel body ch best s).best) (o.watch c fuel body ch best s).world)).before (o.watch c fuel body ch best s).yielded
      | .error _ => (o.watch c fuel body ch best s).seen := by
  intro body
  induction body with
  | zero => intro ch best s st h; cases h
  | succ body ih =>
    intro ch best s st h n b0 s0 hn
    unfold OptCfg.watch at h hn ⊢
    unfold advance
    rcases hnext : Chain.next c ch fuel s with _ | ⟨_ | part, ch', s1⟩
    · rw [hnext] at h; cases h
    · rename_i e
      rw [hnext] at h
      cases e <;> cases h <;> first | exact ⟨b0, s0, rfl⟩ | exact ⟨b0, s0, rfl⟩
    · simp only [hnext] at h hn ⊢
      unfold onward
      simp only
      rcases hcons : o.consumer part s1 with ⟨_ | u, s2⟩
      · rw [hcons] at h; cases h; exact ⟨b0, s0, rfl⟩
      · simp only [hcons] at h hn ⊢
        rcases hsc : o.score part s2 with ⟨e | a, s3⟩
        · simp only [hsc] at h hn ⊢
          cases h
          obtain ⟨m, rfl⟩ : ∃ m, n = m + 1 := ⟨n - 1, by simp at hn; omega⟩
          refine ⟨b0, s0, ?_⟩
          unfold drive
          rw [hloop, process_known, hsc]
          rfl
        · simp only [hsc] at h hn ⊢
          obtain ⟨m, rfl⟩ : ∃ m, n = m + 1 := ⟨n - 1, by simp at hn; omega⟩
          have hm : (o.watch c fuel body ch' (o.update best part a) s3).yielded.length ≤ m := by simpa using hn
          obtain ⟨b0', s0', hih⟩ := ih ch' (o.update best part a) s3 st h m (known best) s2 hm
          refine ⟨b0', s0', ?_⟩
          have hstep : drive o fuel (m + 1) (wait ch' part) (known best) s2 =
              onward o (drive o fuel m) (known best) s2 (advance c ch' fuel (known (o.update best part a)) s3 wait (aft (known (o.update best part a)))) := by
            rw [drive, hloop, process_known, hsc]
          rw [hstep, hih]
          rcases st with _ | _
          · rfl
          · simp only [List.length_cons, Nat.add_sub_add_right]
            rw [before_before]
            rfl

/-- the bursts of `short_bursts` that are left -/
theorem drive_bursts {o : OptCfg S R A} {accept : R → M S Bool} {length : ℤ} {fuel body : ℕ} : ∀ (num : ℕ) (best : R × A) (s : S) (st : Py Unit),
    (o.bursts accept length fuel body num best s).status = some st → ∀ (n : ℕ) (b0 : BestAttr R A) (s0 : S),
    (o.bursts accept length fuel body num best s).yielded.length ≤ n →
    onward o (drive o fuel n) b0 s0 (beginBursts o accept length fuel num (known best) s) = (o.bursts accept length fuel body num best s).seen := by
  intro num
  induction num with
  | zero => intro best s st h n b0 s0 hn; rfl
  | succ num ih =>
    intro best s st h n b0 s0 hn
    unfold beginBursts startChain
    unfold OptCfg.bursts OptCfg.burst at h hn ⊢
    simp only [known] at h hn ⊢
    rcases hinit : Chain.init (o.chain accept best.1 length) o.constraints s with ⟨e | ch, s1⟩
    · simp only [hinit] at h hn ⊢
      rfl
    · simp only [hinit] at h hn ⊢
      set r := o.watch (o.chain accept best.1 length) fuel body (ch.iter (o.chain accept best.1 length)) best s1 with hr
      have hw := drive_watch (o := o) (fuel := fuel) (c := o.chain accept best.1 length)
        (wait := fun ch part => .inBursts accept length num (o.chain accept best.1 length) ch part)
        (aft := fun b s => beginBursts o accept length fuel num b s) (fun ch part b s => rfl) body (ch.iter (o.chain accept best.1 length)) best s1
      rw [← hr] at hw
      rcases hst : r.status with _ | ⟨e | u⟩
      · simp only [hst] at h
        cases h
      · simp only [hst] at h hn ⊢
        obtain ⟨b0', s0', k⟩ := hw (.error e) hst n b0 s0 hn
        exact k
      · simp only [hst] at h hn ⊢
        have hn' : r.yielded.length + (o.bursts accept length fuel body num r.best r.world).yielded.length ≤ n := by
          simpa [OptRun.append] using hn
        obtain ⟨b0', s0', k⟩ := hw (.ok ()) hst n b0 s0 (by omega)
        refine k.trans ?_
        simp only
        rw [ih r.best r.world st (by simpa [OptRun.append] using h) _ _ _ (by omega)]
        rfl

/-- **C101.**  A `for` loop over `short_bursts` (or `tilted_short_bursts`) does exactly what the whole run says. -/
theorem C101_short_bursts (o : OptCfg S R A) (accept : R → M S Bool) (length : ℤ) (num fuel body : ℕ) (s : S) (a0 : A) (run : OptRun S R A)
    (h : o.shortBursts accept length num fuel body s = .ok (a0, run)) (st : Py Unit) (hst : run.status = some st) (b : BestAttr R A) (n : ℕ)
    (hn : run.yielded.length < n) : drive o fuel n (.fresh (.bursts accept length num)) b s = run.seen := by
  obtain ⟨m, rfl⟩ : ∃ m, n = m + 1 := ⟨n - 1, by omega⟩
  unfold OptCfg.shortBursts at h
  rcases hs : o.score o.initial s with ⟨e | a, s1⟩
  · rw [hs] at h; cases h
  · rw [hs] at h
    cases h
    have : resume o fuel (.fresh (.bursts accept length num)) b s = beginBursts o accept length fuel num (known (o.initial, a0)) s1 := by
      unfold resume resetBest
      simp only [hs]
      rfl
    rw [drive, this]
    exact drive_bursts num (o.initial, a0) s1 st hst m b s (by omega)

/-- **C101.**  A `for` loop over `simulated_annealing` or `tilted_run` does exactly what the whole run says. -/
theorem C101_single_run (o : OptCfg S R A) (accept : R → M S Bool) (steps : ℤ) (fuel body : ℕ) (s : S) (a0 : A) (run : OptRun S R A)
    (h : o.singleRun accept steps fuel body s = .ok (a0, run)) (st : Py Unit) (hst : run.status = some st) (b : BestAttr R A) (n : ℕ)
    (hn : run.yielded.length < n) : drive o fuel n (.fresh (.single accept steps)) b s = run.seen := by
  obtain ⟨m, rfl⟩ : ∃ m, n = m + 1 := ⟨n - 1, by omega⟩
  unfold OptCfg.singleRun at h
  rcases hinit : Chain.init (o.chain accept o.initial steps) o.constraints s with ⟨e | ch, s1⟩
  · rw [hinit] at h; cases h
  · rw [hinit] at h
    simp only at h
    rcases hs : o.score o.initial s1 with ⟨e | a, s2⟩
    · rw [hs] at h; cases h
    · rw [hs] at h
      cases h
      have : resume o fuel (.fresh (.single accept steps)) b s =
          advance (o.chain accept o.initial steps) (ch.iter (o.chain accept o.initial steps)) fuel (known (o.initial, a0)) s2
            (fun ch' part => .inSingle (o.chain accept o.initial steps) ch' part) (fun s3 => some (.stops, .finished, known (o.initial, a0), s3)) := by
        unfold resume resetBest
        simp only [hinit, hs]
        rfl
      rw [drive, this]
      obtain ⟨b0', s0', k⟩ := drive_watch (o := o) (fuel := fuel) (c := o.chain accept o.initial steps)
        (wait := fun ch part => .inSingle (o.chain accept o.initial steps) ch part)
        (aft := fun b s => some (.stops, .finished, b, s)) (fun ch part b s => rfl) body (ch.iter (o.chain accept o.initial steps)) (o.initial, a0) s2 st hst m b s
        (by omega)
      refine k.trans ?_
      rcases st with e | u
      · rfl
      · simp only [onward, Driven.before, OptRun.seen, List.append_nil, hst]

/-! ### Bursts of variable length -/

/-- a fresh chain hands out its initial state first, so that what comes after the loop does not matter for the first `next` -/
theorem advance_fresh (c : ChainCfg S R) (ch : Chain S R) (fuel : ℕ) (b : BestAttr R A) (s : S) (wait : Chain S R → R → OptGen S R)
    (after after' : S → Resumed S R A) : advance c (ch.iter c) fuel b s wait after = advance c (ch.iter c) fuel b s wait after' := rfl

/-- what comes after a burst of variable length -/
def nextVar (o : OptCfg S R A) (accept : R → M S Bool) (numSteps stuckBuffer : ℤ) (fuel length : ℕ) (stuck i : ℕ) (b : BestAttr R A) (s : S) : Resumed S R A :=
  beginVar o accept numSteps stuckBuffer fuel fuel (if stuckBuffer * length ≤ (stuck : ℤ) then length * 2 else length) stuck i b s

theorem drive_watchVar {o : OptCfg S R A} {accept : R → M S Bool} {numSteps stuckBuffer : ℤ} {fuel length : ℕ} {c : ChainCfg S R} :
    ∀ (body : ℕ) (ch : Chain S R) (best : R × A) (stuck i : ℕ) (s : S) (st : Py Unit),
    (o.watchVar c numSteps fuel body ch best stuck i s).1.status = some st → ∀ (n : ℕ) (b0 : BestAttr R A) (s0 : S),
    (o.watchVar c numSteps fuel body ch best stuck i s).1.yielded.length ≤ n →
    ∃ b0' s0', onward o (drive o fuel n) b0 s0 (advance c ch fuel (known best) s
        (fun ch part => .inVar accept numSteps stuckBuffer length stuck i c ch part) (nextVar o accept numSteps stuckBuffer fuel length stuck i (known best))) =
      match st with
      | .ok () => (onward o (drive o fuel (n - (o.watchVar c numSteps fuel body ch best stuck i s).1.yielded.length)) b0' s0'
          (nextVar o accept numSteps stuckBuffer fuel length (o.watchVar c numSteps fuel body ch best stuck i s).2.1
            (o.watchVar c numSteps fuel body ch best stuck i s).2.2 (known (o.watchVar c numSteps fuel body ch best stuck i s).1.best)
            (o.watchVar c numSteps fuel body ch best stuck i s).1.world)).before (o.watchVar c numSteps fuel body ch best stuck i s).1.yielded
      | .error _ => (o.watchVar c numSteps fuel body ch best stuck i s).1.seen := by
  intro body
  induction body with
  | zero => intro ch best stuck i s st h; cases h
  | succ body ih =>
    intro ch best stuck i s st h n b0 s0 hn
    unfold OptCfg.watchVar at h hn ⊢
    unfold advance
    rcases hnext : Chain.next c ch fuel s with _ | ⟨_ | part, ch', s1⟩
    · rw [hnext] at h; cases h
    · rename_i e
      rw [hnext] at h
      cases e <;> cases h <;> first | exact ⟨b0, s0, rfl⟩ | exact ⟨b0, s0, rfl⟩
    · simp only [hnext] at h hn ⊢
      unfold onward
      simp only
      rcases hcons : o.consumer part s1 with ⟨_ | u, s2⟩
      · rw [hcons] at h; cases h; exact ⟨b0, s0, rfl⟩
      · simp only [hcons] at h hn ⊢
        rcases hsc : o.score part s2 with ⟨e | a, s3⟩
        · simp only [hsc] at h hn ⊢
          cases h
          obtain ⟨m, rfl⟩ : ∃ m, n = m + 1 := ⟨n - 1, by simp at hn; omega⟩
          refine ⟨b0, s0, ?_⟩
          unfold drive
          unfold resume
          simp only [process_known, hsc]
          rfl
        · simp only [hsc] at h hn ⊢
          have hres : resume o fuel (.inVar accept numSteps stuckBuffer length stuck i c ch' part) (known best) s2 =
              (if numSteps ≤ (i + 1 : ℕ) then nextVar o accept numSteps stuckBuffer fuel length (if isImprovement o.maximize a best.2 then 0 else stuck + 1) (i + 1)
                  (known (o.update best part a)) s3
                else advance c ch' fuel (known (o.update best part a)) s3
                  (fun ch part => .inVar accept numSteps stuckBuffer length (if isImprovement o.maximize a best.2 then 0 else stuck + 1) (i + 1) c ch part)
                  (nextVar o accept numSteps stuckBuffer fuel length (if isImprovement o.maximize a best.2 then 0 else stuck + 1) (i + 1)
                    (known (o.update best part a)))) := by
            unfold resume
            simp only [process_known, hsc]
            rfl
          by_cases hstop : numSteps ≤ (i + 1 : ℕ)
          · simp only [if_pos hstop] at h hn hres ⊢
            cases h
            obtain ⟨m, rfl⟩ : ∃ m, n = m + 1 := ⟨n - 1, by simp at hn; omega⟩
            refine ⟨known best, s2, ?_⟩
            rw [drive, hres]
            rfl
          · simp only [if_neg hstop] at h hn hres ⊢
            obtain ⟨m, rfl⟩ : ∃ m, n = m + 1 := ⟨n - 1, by simp at hn; omega⟩
            obtain ⟨b0', s0', hih⟩ := ih ch' (o.update best part a) (if isImprovement o.maximize a best.2 then 0 else stuck + 1) (i + 1) s3 st h m (known best) s2
              (by simpa using hn)
            refine ⟨b0', s0', ?_⟩
            rw [drive, hres, hih]
            rcases st with _ | _
            · rfl
            · simp only [List.length_cons, Nat.add_sub_add_right]
              rw [before_before]
              rfl

theorem drive_varBursts {o : OptCfg S R A} {accept : R → M S Bool} {numSteps stuckBuffer : ℤ} {fuel body : ℕ} (hf : 0 < fuel) :
    ∀ (bursts length : ℕ) (best : R × A) (stuck i : ℕ) (s : S) (st : Py Unit),
    (o.varBursts accept numSteps stuckBuffer fuel body bursts length best stuck i s).status = some st → ∀ (n : ℕ) (b0 : BestAttr R A) (s0 : S),
    (o.varBursts accept numSteps stuckBuffer fuel body bursts length best stuck i s).yielded.length ≤ n →
    onward o (drive o fuel n) b0 s0 (beginVar o accept numSteps stuckBuffer fuel fuel length stuck i (known best) s) =
      (o.varBursts accept numSteps stuckBuffer fuel body bursts length best stuck i s).seen := by
  intro bursts
  obtain ⟨k, hk⟩ : ∃ k, fuel = k + 1 := ⟨fuel - 1, by omega⟩
  induction bursts with
  | zero => intro length best stuck i s st h; cases h
  | succ bursts ih =>
    intro length best stuck i s st h n b0 s0 hn
    have hbv : beginVar o accept numSteps stuckBuffer fuel fuel length stuck i (known best) s = beginVar o accept numSteps stuckBuffer fuel (k + 1) length stuck i (known best) s := by
      rw [← hk]
    rw [hbv]
    unfold beginVar startChain
    unfold OptCfg.varBursts OptCfg.burstVar at h hn ⊢
    by_cases hi : (i : ℤ) < numSteps
    · simp only [if_pos hi, known] at h hn ⊢
      rcases hinit : Chain.init (o.chain accept best.1 length) o.constraints s with ⟨e | ch, s1⟩
      · simp only [hinit] at h hn ⊢
        rfl
      · simp only [hinit] at h hn ⊢
        rw [advance_fresh (after' := nextVar o accept numSteps stuckBuffer fuel length stuck i (known best))]
        set r := o.watchVar (o.chain accept best.1 length) numSteps fuel body (ch.iter (o.chain accept best.1 length)) best stuck i s1 with hr
        have hw := drive_watchVar (o := o) (accept := accept) (numSteps := numSteps) (stuckBuffer := stuckBuffer) (fuel := fuel) (length := length)
          (c := o.chain accept best.1 length) body (ch.iter (o.chain accept best.1 length)) best stuck i s1
        rw [← hr] at hw
        rcases hst : r.1.status with _ | ⟨e | u⟩
        · simp only [hst] at h
          cases h
        · simp only [hst] at h hn ⊢
          obtain ⟨b0', s0', k⟩ := hw (.error e) hst n b0 s0 hn
          exact k
        · simp only [hst] at h hn ⊢
          have hn' : r.1.yielded.length + (o.varBursts accept numSteps stuckBuffer fuel body bursts
              (if stuckBuffer * length ≤ (r.2.1 : ℤ) then length * 2 else length) r.1.best r.2.1 r.2.2 r.1.world).yielded.length ≤ n := by
            simpa [OptRun.append] using hn
          obtain ⟨b0', s0', k⟩ := hw (.ok ()) hst n b0 s0 (by omega)
          refine k.trans ?_
          simp only
          unfold nextVar
          rw [ih _ r.1.best r.2.1 r.2.2 r.1.world st (by simpa [OptRun.append] using h) _ _ _ (by omega)]
          rfl
    · simp only [if_neg hi] at h hn ⊢
      rfl

/-- **C101.**  A `for` loop over `variable_length_short_bursts` does exactly what the whole run says. -/
theorem C101_variable_length (o : OptCfg S R A) (accept : R → M S Bool) (numSteps stuckBuffer : ℤ) (fuel body bursts : ℕ) (hf : 0 < fuel) (s : S) (a0 : A)
    (run : OptRun S R A) (h : o.variableLength accept numSteps stuckBuffer fuel body bursts s = .ok (a0, run)) (st : Py Unit) (hst : run.status = some st)
    (b : BestAttr R A) (n : ℕ) (hn : run.yielded.length < n) :
    drive o fuel n (.fresh (.variable accept numSteps stuckBuffer)) b s = run.seen := by
  obtain ⟨m, rfl⟩ : ∃ m, n = m + 1 := ⟨n - 1, by omega⟩
  unfold OptCfg.variableLength at h
  rcases hs : o.score o.initial s with ⟨e | a, s1⟩
  · rw [hs] at h; cases h
  · rw [hs] at h
    cases h
    have : resume o fuel (.fresh (.variable accept numSteps stuckBuffer)) b s = beginVar o accept numSteps stuckBuffer fuel fuel 2 0 0 (known (o.initial, a0)) s1 := by
      unfold resume resetBest
      simp only [hs]
      rfl
    rw [drive, this]
    exact drive_varBursts hf bursts 2 (o.initial, a0) 0 0 s1 st hst m b s (by omega)

/-- **C101.**  When the start of a run raises, the loop raises the same exception and the optimizer holds the initial plan with the old score,
or its old attributes if the chain was refused. -/
theorem C101_failed_start (o : OptCfg S R A) (accept : R → M S Bool) (length steps stuckBuffer : ℤ) (num fuel body bursts n : ℕ) (s s1 : S) (e : PyErr)
    (b : BestAttr R A) :
    (o.shortBursts accept length num fuel body s = .error (e, s1) →
      drive o fuel (n + 1) (.fresh (.bursts accept length num)) b s = ⟨some (.error e), [], ⟨some o.initial, b.score⟩, s1⟩) ∧
    (o.variableLength accept steps stuckBuffer fuel body bursts s = .error (e, s1) →
      drive o fuel (n + 1) (.fresh (.variable accept steps stuckBuffer)) b s = ⟨some (.error e), [], ⟨some o.initial, b.score⟩, s1⟩) ∧
    (o.singleRun accept steps fuel body s = .error (e, s1) →
      drive o fuel (n + 1) (.fresh (.single accept steps)) b s = ⟨some (.error e), [], b, s1⟩ ∨
      drive o fuel (n + 1) (.fresh (.single accept steps)) b s = ⟨some (.error e), [], ⟨some o.initial, b.score⟩, s1⟩) := by
  refine ⟨fun h => ?_, fun h => ?_, fun h => ?_⟩
  · unfold OptCfg.shortBursts at h
    rcases hs : o.score o.initial s with ⟨e' | a, s2⟩
    · rw [hs] at h
      cases h
      unfold drive resume resetBest
      simp only [hs]
      rfl
    · rw [hs] at h; cases h
  · unfold OptCfg.variableLength at h
    rcases hs : o.score o.initial s with ⟨e' | a, s2⟩
    · rw [hs] at h
      cases h
      unfold drive resume resetBest
      simp only [hs]
      rfl
    · rw [hs] at h; cases h
  · unfold OptCfg.singleRun at h
    rcases hinit : Chain.init (o.chain accept o.initial steps) o.constraints s with ⟨e' | ch, s2⟩
    · rw [hinit] at h
      cases h
      left
      unfold drive resume
      simp only [hinit]
      rfl
    · rw [hinit] at h
      simp only at h
      rcases hs : o.score o.initial s2 with ⟨e' | a, s3⟩
      · rw [hs] at h
        cases h
        right
        unfold drive resume resetBest
        simp only [hinit, hs]
        rfl
      · rw [hs] at h; cases h

/-! ### A loop that ends is a whole run -/

theorem watch_ends {o : OptCfg S R A} {fuel : ℕ} {c : ChainCfg S R} {wait : Chain S R → R → OptGen S R} {aft : BestAttr R A → S → Resumed S R A}
    (hloop : PlainLoop o fuel c wait aft) : ∀ (n : ℕ) (ch : Chain S R) (best : R × A) (s : S) (b0 : BestAttr R A) (s0 : S),
    (onward o (drive o fuel n) b0 s0 (advance c ch fuel (known best) s wait (aft (known best)))).status ≠ none → ∀ body, n < body →
      (o.watch c fuel body ch best s).status ≠ none ∧ (o.watch c fuel body ch best s).yielded.length ≤ n + 1 ∧
      ((o.watch c fuel body ch best s).status = some (.ok ()) → (o.watch c fuel body ch best s).yielded.length ≤ n) := by
  intro n
  induction n with
  | zero =>
    intro ch best s b0 s0 h body hb
    obtain ⟨body, rfl⟩ : ∃ m, body = m + 1 := ⟨body - 1, by omega⟩
    unfold OptCfg.watch
    unfold advance at h
    rcases hnext : Chain.next c ch fuel s with _ | ⟨_ | part, ch', s1⟩
    · rw [hnext] at h; exact absurd rfl h
    · rename_i e
      cases e <;> simp
    · simp only [hnext] at h ⊢
      unfold onward at h
      simp only at h
      rcases hcons : o.consumer part s1 with ⟨_ | u, s2⟩
      · simp
      · simp only [hcons] at h
        exact absurd rfl h
  | succ n ih =>
    intro ch best s b0 s0 h body hb
    obtain ⟨body, rfl⟩ : ∃ m, body = m + 1 := ⟨body - 1, by omega⟩
    unfold OptCfg.watch
    unfold advance at h
    rcases hnext : Chain.next c ch fuel s with _ | ⟨_ | part, ch', s1⟩
    · rw [hnext] at h; exact absurd rfl h
    · rename_i e
      cases e <;> simp
    · simp only [hnext] at h ⊢
      unfold onward at h
      simp only at h
      rcases hcons : o.consumer part s1 with ⟨_ | u, s2⟩
      · simp
      · simp only [hcons] at h ⊢
        rcases hsc : o.score part s2 with ⟨e | a, s3⟩
        · simp
        · simp only
          have hstep : drive o fuel (n + 1) (wait ch' part) (known best) s2 =
              onward o (drive o fuel n) (known best) s2 (advance c ch' fuel (known (o.update best part a)) s3 wait (aft (known (o.update best part a)))) := by
            rw [drive, hloop, process_known, hsc]
          rw [hstep] at h
          obtain ⟨k1, k2, k3⟩ := ih ch' (o.update best part a) s3 _ _ h body (by omega)
          exact ⟨k1, by simpa using k2, fun k => by simpa using k3 k⟩

theorem bursts_ends {o : OptCfg S R A} {accept : R → M S Bool} {length : ℤ} {fuel : ℕ} : ∀ (num : ℕ) (best : R × A) (s : S) (n : ℕ) (b0 : BestAttr R A) (s0 : S),
    (onward o (drive o fuel n) b0 s0 (beginBursts o accept length fuel num (known best) s)).status ≠ none → ∀ body, n < body →
      (o.bursts accept length fuel body num best s).status ≠ none ∧ (o.bursts accept length fuel body num best s).yielded.length ≤ n + 1 := by
  intro num
  induction num with
  | zero => intro best s n b0 s0 h body hb; exact ⟨by simp [OptCfg.bursts], by simp [OptCfg.bursts]⟩
  | succ num ih =>
    intro best s n b0 s0 h body hb
    unfold beginBursts startChain at h
    unfold OptCfg.bursts OptCfg.burst
    simp only [known] at h ⊢
    rcases hinit : Chain.init (o.chain accept best.1 length) o.constraints s with ⟨e | ch, s1⟩
    · simp
    · simp only [hinit] at h ⊢
      have hloop : PlainLoop o fuel (o.chain accept best.1 length) (fun ch part => .inBursts accept length num (o.chain accept best.1 length) ch part)
          (fun b s => beginBursts o accept length fuel num b s) := fun ch part b s => rfl
      obtain ⟨k1, k2, k3⟩ := watch_ends hloop n (ch.iter (o.chain accept best.1 length)) best s1 b0 s0 h body hb
      have hw := drive_watch hloop body (ch.iter (o.chain accept best.1 length)) best s1
      set r := o.watch (o.chain accept best.1 length) fuel body (ch.iter (o.chain accept best.1 length)) best s1 with hr
      rcases hst : r.status with _ | ⟨e | u⟩
      · exact absurd hst k1
      · simp only
        exact ⟨k1, k2⟩
      · simp only
        obtain ⟨b0', s0', k⟩ := hw (.ok ()) hst n b0 s0 (k3 hst)
        have h' : (onward o (drive o fuel (n - r.yielded.length)) b0' s0' (beginBursts o accept length fuel num (known r.best) r.world)).status ≠ none := by
          have h2 : (onward o (drive o fuel n) b0 s0 (advance (o.chain accept best.1 length) (ch.iter (o.chain accept best.1 length)) fuel (known best) s1
            (fun ch part => .inBursts accept length num (o.chain accept best.1 length) ch part)
            (fun s => beginBursts o accept length fuel num (known best) s))).status ≠ none := h
          rw [k] at h2
          exact h2
        obtain ⟨j1, j2⟩ := ih r.best r.world _ _ _ h' body (by omega)
        refine ⟨j1, ?_⟩
        have := k3 hst
        simp only [OptRun.append, List.length_append]
        omega

/-- a loop that has ended does not depend on the bound -/
theorem drive_mono {o : OptCfg S R A} {fuel : ℕ} : ∀ (n : ℕ) (g : OptGen S R) (b : BestAttr R A) (s : S), (drive o fuel n g b s).status ≠ none →
    drive o fuel (n + 1) g b s = drive o fuel n g b s := by
  intro n
  induction n with
  | zero => intro g b s h; exact absurd rfl h
  | succ n ih =>
    intro g b s h
    rw [drive] at h
    rw [drive, drive]
    rcases hr : resume o fuel g b s with _ | ⟨part | _ | _, g', b', s'⟩
    · rfl
    · rw [hr] at h
      unfold onward at h ⊢
      simp only at h ⊢
      rcases hc : o.consumer part s' with ⟨e | u, s1⟩
      · rfl
      · simp only [hc] at h ⊢
        rw [ih g' b' s1 h]
    · rfl
    · rfl

/-- **C101.**  Every `for` loop over `short_bursts` that comes to an end is a whole run. -/
theorem C101_short_bursts_converse (o : OptCfg S R A) (accept : R → M S Bool) (length : ℤ) (num fuel n : ℕ) (s : S) (b : BestAttr R A) (st : Py Unit)
    (h : (drive o fuel n (.fresh (.bursts accept length num)) b s).status = some st) :
    (∃ a0 run, o.shortBursts accept length num fuel n s = .ok (a0, run) ∧ drive o fuel n (.fresh (.bursts accept length num)) b s = run.seen) ∨
    ∃ e s1, o.shortBursts accept length num fuel n s = .error (e, s1) ∧ st = .error e := by
  obtain _ | n := n
  · cases h
  unfold OptCfg.shortBursts
  rcases hs : o.score o.initial s with ⟨e | a, s1⟩
  · right
    refine ⟨_, _, rfl, ?_⟩
    have hr : resume o fuel (.fresh (.bursts accept length num)) b s = some (.raises (genErr e), .finished, ⟨some o.initial, b.score⟩, s1) := by
      unfold resume resetBest
      simp only [hs]
    rw [drive, hr] at h
    cases h
    rfl
  · left
    have hr : resume o fuel (.fresh (.bursts accept length num)) b s = beginBursts o accept length fuel num (known (o.initial, a)) s1 := by
      unfold resume resetBest
      simp only [hs]
      rfl
    refine ⟨a, _, rfl, ?_⟩
    have h0 := h
    rw [drive, hr] at h
    obtain ⟨k1, k2⟩ := bursts_ends num (o.initial, a) s1 n b s (by rw [h]; simp) (n + 1) (by omega)
    obtain ⟨st', hst'⟩ := Option.ne_none_iff_exists'.1 k1
    rw [← drive_mono (n + 1) _ _ _ (by rw [h0]; simp), drive, hr]
    exact drive_bursts num (o.initial, a) s1 st' hst' (n + 1) b s k2

/-- **C101.**  Every `for` loop over `simulated_annealing` or `tilted_run` that comes to an end is a whole run. -/
theorem C101_single_run_converse (o : OptCfg S R A) (accept : R → M S Bool) (steps : ℤ) (fuel n : ℕ) (s : S) (b : BestAttr R A) (st : Py Unit)
    (h : (drive o fuel n (.fresh (.single accept steps)) b s).status = some st) :
    (∃ a0 run, o.singleRun accept steps fuel n s = .ok (a0, run) ∧ drive o fuel n (.fresh (.single accept steps)) b s = run.seen) ∨
    ∃ e s1, o.singleRun accept steps fuel n s = .error (e, s1) ∧ st = .error e := by
  obtain _ | n := n
  · cases h
  unfold OptCfg.singleRun
  rcases hinit : Chain.init (o.chain accept o.initial steps) o.constraints s with ⟨e | ch, s1⟩
  · right
    refine ⟨_, _, rfl, ?_⟩
    have hr : resume o fuel (.fresh (.single accept steps)) b s = some (.raises (genErr e), .finished, b, s1) := by
      unfold resume
      simp only [hinit]
    rw [drive, hr] at h
    cases h
    rfl
  simp only
  rcases hs : o.score o.initial s1 with ⟨e | a, s2⟩
  · right
    refine ⟨_, _, rfl, ?_⟩
    have hr : resume o fuel (.fresh (.single accept steps)) b s = some (.raises (genErr e), .finished, ⟨some o.initial, b.score⟩, s2) := by
      unfold resume resetBest
      simp only [hinit, hs]
    rw [drive, hr] at h
    cases h
    rfl
  · left
    have hr : resume o fuel (.fresh (.single accept steps)) b s =
        advance (o.chain accept o.initial steps) (ch.iter (o.chain accept o.initial steps)) fuel (known (o.initial, a)) s2
          (fun ch' part => .inSingle (o.chain accept o.initial steps) ch' part) (fun s3 => some (.stops, .finished, known (o.initial, a), s3)) := by
      unfold resume resetBest
      simp only [hinit, hs]
      rfl
    have hloop : PlainLoop o fuel (o.chain accept o.initial steps) (fun ch part => .inSingle (o.chain accept o.initial steps) ch part)
        (fun b s => some (.stops, .finished, b, s)) := fun ch part b s => rfl
    refine ⟨a, _, rfl, ?_⟩
    have h0 := h
    rw [drive, hr] at h
    obtain ⟨k1, k2, -⟩ := watch_ends hloop n (ch.iter (o.chain accept o.initial steps)) (o.initial, a) s2 b s (by
      have h' : (onward o (drive o fuel n) b s (advance (o.chain accept o.initial steps) (ch.iter (o.chain accept o.initial steps)) fuel (known (o.initial, a)) s2
          (fun ch' part => .inSingle (o.chain accept o.initial steps) ch' part) (fun s3 => some (.stops, .finished, known (o.initial, a), s3)))).status ≠ none := by
        rw [h]; simp
      exact h') (n + 1) (by omega)
    obtain ⟨st', hst'⟩ := Option.ne_none_iff_exists'.1 k1
    rw [← drive_mono (n + 1) _ _ _ (by rw [h0]; simp), drive, hr]
    obtain ⟨b0', s0', k⟩ := drive_watch hloop (n + 1) (ch.iter (o.chain accept o.initial steps)) (o.initial, a) s2 st' hst' (n + 1) b s k2
    refine k.trans ?_
    rcases st' with e | u
    · rfl
    · simp only [onward, Driven.before, OptRun.seen, List.append_nil, hst']

theorem watchVar_ends {o : OptCfg S R A} {accept : R → M S Bool} {numSteps stuckBuffer : ℤ} {fuel length : ℕ} {c : ChainCfg S R} :
    ∀ (n : ℕ) (ch : Chain S R) (best : R × A) (stuck i : ℕ) (s : S) (b0 : BestAttr R A) (s0 : S),
    (onward o (drive o fuel n) b0 s0 (advance c ch fuel (known best) s
        (fun ch part => .inVar accept numSteps stuckBuffer length stuck i c ch part)
        (nextVar o accept numSteps stuckBuffer fuel length stuck i (known best)))).status ≠ none → ∀ body, n < body →
      (o.watchVar c numSteps fuel body ch best stuck i s).1.status ≠ none ∧ (o.watchVar c numSteps fuel body ch best stuck i s).1.yielded.length ≤ n + 1 ∧
      ((o.watchVar c numSteps fuel body ch best stuck i s).1.status = some (.ok ()) →
        (o.watchVar c numSteps fuel body ch best stuck i s).1.yielded.length ≤ n) := by
  intro n
  induction n with
  | zero =>
    intro ch best stuck i s b0 s0 h body hb
    obtain ⟨body, rfl⟩ : ∃ m, body = m + 1 := ⟨body - 1, by omega⟩
    unfold OptCfg.watchVar
    unfold advance at h
    rcases hnext : Chain.next c ch fuel s with _ | ⟨_ | part, ch', s1⟩
    · rw [hnext] at h; exact absurd rfl h
    · rename_i e
      cases e <;> simp
    · simp only [hnext] at h ⊢
      unfold onward at h
      simp only at h
      rcases hcons : o.consumer part s1 with ⟨_ | u, s2⟩
      · simp
      · simp only [hcons] at h
        exact absurd rfl h
  | succ n ih =>
    intro ch best stuck i s b0 s0 h body hb
    obtain ⟨body, rfl⟩ : ∃ m, body = m + 1 := ⟨body - 1, by omega⟩
    unfold OptCfg.watchVar
    unfold advance at h
    rcases hnext : Chain.next c ch fuel s with _ | ⟨_ | part, ch', s1⟩
    · rw [hnext] at h; exact absurd rfl h
    · rename_i e
      cases e <;> simp
    · simp only [hnext] at h ⊢
      unfold onward at h
      simp only at h
      rcases hcons : o.consumer part s1 with ⟨_ | u, s2⟩
      · simp
      · simp only [hcons] at h ⊢
        rcases hsc : o.score part s2 with ⟨e | a, s3⟩
        · simp
        · simp only
          by_cases hstop : numSteps ≤ (i + 1 : ℕ)
          · simp only [if_pos hstop]
            simp
          · simp only [if_neg hstop]
            have hstep : drive o fuel (n + 1) (.inVar accept numSteps stuckBuffer length stuck i c ch' part) (known best) s2 =
                onward o (drive o fuel n) (known best) s2 (advance c ch' fuel (known (o.update best part a)) s3
                  (fun ch part => .inVar accept numSteps stuckBuffer length (if isImprovement o.maximize a best.2 then 0 else stuck + 1) (i + 1) c ch part)
                  (nextVar o accept numSteps stuckBuffer fuel length (if isImprovement o.maximize a best.2 then 0 else stuck + 1) (i + 1)
                    (known (o.update best part a)))) := by
              rw [drive]
              congr 1
              unfold resume
              simp only [process_known, hsc]
              rw [if_neg hstop]
              rfl
            rw [hstep] at h
            obtain ⟨k1, k2, k3⟩ := ih ch' (o.update best part a) (if isImprovement o.maximize a best.2 then 0 else stuck + 1) (i + 1) s3 _ _ h body (by omega)
            exact ⟨k1, by simpa using k2, fun k => by simpa using k3 k⟩

/-- a burst hands out at least its initial state -/
theorem watchVar_fresh {o : OptCfg S R A} {c : ChainCfg S R} {numSteps : ℤ} {fuel body : ℕ} {ch : Chain S R} {best : R × A} {stuck i : ℕ} {s : S} :
    1 ≤ (o.watchVar c numSteps fuel (body + 1) (ch.iter c) best stuck i s).1.yielded.length := by
  unfold OptCfg.watchVar
  simp only [Chain.next, Chain.iter]
  rcases hcons : o.consumer c.initial s with ⟨_ | u, s2⟩
  · simp
  · simp only
    rcases hsc : o.score c.initial s2 with ⟨e | a, s3⟩
    · simp
    · simp only
      split_ifs <;> simp

theorem varBursts_ends {o : OptCfg S R A} {accept : R → M S Bool} {numSteps stuckBuffer : ℤ} {fuel : ℕ} (hf : 0 < fuel) :
    ∀ (bursts length : ℕ) (best : R × A) (stuck i : ℕ) (s : S) (n : ℕ) (b0 : BestAttr R A) (s0 : S),
    (onward o (drive o fuel n) b0 s0 (beginVar o accept numSteps stuckBuffer fuel fuel length stuck i (known best) s)).status ≠ none →
      n < bursts → ∀ body, n < body →
      (o.varBursts accept numSteps stuckBuffer fuel body bursts length best stuck i s).status ≠ none ∧
      (o.varBursts accept numSteps stuckBuffer fuel body bursts length best stuck i s).yielded.length ≤ n + 1 := by
  intro bursts
  obtain ⟨k, hk⟩ : ∃ k, fuel = k + 1 := ⟨fuel - 1, by omega⟩
  induction bursts with
  | zero => intro length best stuck i s n b0 s0 h hn; omega
  | succ bursts ih =>
    intro length best stuck i s n b0 s0 h hn body hb
    have hbv : beginVar o accept numSteps stuckBuffer fuel fuel length stuck i (known best) s = beginVar o accept numSteps stuckBuffer fuel (k + 1) length stuck i (known best) s := by
      rw [← hk]
    rw [hbv] at h
    unfold beginVar startChain at h
    unfold OptCfg.varBursts OptCfg.burstVar
    by_cases hi : (i : ℤ) < numSteps
    · simp only [if_pos hi, known] at h ⊢
      rcases hinit : Chain.init (o.chain accept best.1 length) o.constraints s with ⟨e | ch, s1⟩
      · simp
      · simp only [hinit] at h ⊢
        rw [advance_fresh (after' := nextVar o accept numSteps stuckBuffer fuel length stuck i (known best))] at h
        obtain ⟨k1, k2, k3⟩ := watchVar_ends n (ch.iter (o.chain accept best.1 length)) best stuck i s1 b0 s0 h body hb
        have hw := drive_watchVar (o := o) (accept := accept) (numSteps := numSteps) (stuckBuffer := stuckBuffer) (fuel := fuel) (length := length)
          (c := o.chain accept best.1 length) body (ch.iter (o.chain accept best.1 length)) best stuck i s1
        have hone : 1 ≤ (o.watchVar (o.chain accept best.1 length) numSteps fuel body (ch.iter (o.chain accept best.1 length)) best stuck i s1).1.yielded.length := by
          obtain ⟨m, rfl⟩ : ∃ m, body = m + 1 := ⟨body - 1, by omega⟩
          exact watchVar_fresh
        set r := o.watchVar (o.chain accept best.1 length) numSteps fuel body (ch.iter (o.chain accept best.1 length)) best stuck i s1 with hr
        rcases hst : r.1.status with _ | ⟨e | u⟩
        · exact absurd hst k1
        · simp only
          exact ⟨k1, k2⟩
        · simp only
          obtain ⟨b0', s0', k⟩ := hw (.ok ()) hst n b0 s0 (k3 hst)
          have h2 : (onward o (drive o fuel n) b0 s0 (advance (o.chain accept best.1 length) (ch.iter (o.chain accept best.1 length)) fuel (known best) s1
              (fun ch part => .inVar accept numSteps stuckBuffer length stuck i (o.chain accept best.1 length) ch part)
              (nextVar o accept numSteps stuckBuffer fuel length stuck i (known best)))).status ≠ none := h
          rw [k] at h2
          obtain ⟨j1, j2⟩ := ih _ r.1.best r.2.1 r.2.2 r.1.world _ _ _ h2 (by have := k3 hst; omega) body (by omega)
          refine ⟨j1, ?_⟩
          have := k3 hst
          show (r.1.yielded ++ OptRun.yielded _).length ≤ n + 1
          rw [List.length_append]
          exact le_trans (Nat.add_le_add_left j2 _) (by omega)
    · simp only [if_neg hi]
      simp

/-- **C101.**  Every `for` loop over `variable_length_short_bursts` that comes to an end is a whole run. -/
theorem C101_variable_length_converse (o : OptCfg S R A) (accept : R → M S Bool) (numSteps stuckBuffer : ℤ) (fuel n : ℕ) (hf : 0 < fuel) (s : S)
    (b : BestAttr R A) (st : Py Unit) (h : (drive o fuel n (.fresh (.variable accept numSteps stuckBuffer)) b s).status = some st) :
    (∃ a0 run, o.variableLength accept numSteps stuckBuffer fuel n n s = .ok (a0, run) ∧
      drive o fuel n (.fresh (.variable accept numSteps stuckBuffer)) b s = run.seen) ∨
    ∃ e s1, o.variableLength accept numSteps stuckBuffer fuel n n s = .error (e, s1) ∧ st = .error e := by
  obtain _ | n := n
  · cases h
  unfold OptCfg.variableLength
  rcases hs : o.score o.initial s with ⟨e | a, s1⟩
  · right
    refine ⟨_, _, rfl, ?_⟩
    have hr : resume o fuel (.fresh (.variable accept numSteps stuckBuffer)) b s = some (.raises (genErr e), .finished, ⟨some o.initial, b.score⟩, s1) := by
      unfold resume resetBest
      simp only [hs]
    rw [drive, hr] at h
    cases h
    rfl
  · left
    have hr : resume o fuel (.fresh (.variable accept numSteps stuckBuffer)) b s = beginVar o accept numSteps stuckBuffer fuel fuel 2 0 0 (known (o.initial, a)) s1 := by
      unfold resume resetBest
      simp only [hs]
      rfl
    refine ⟨a, _, rfl, ?_⟩
    have h0 := h
    rw [drive, hr] at h
    obtain ⟨k1, k2⟩ := varBursts_ends hf (n + 1) 2 (o.initial, a) 0 0 s1 n b s (by rw [h]; simp) (by omega) (n + 1) (by omega)
    obtain ⟨st', hst'⟩ := Option.ne_none_iff_exists'.1 k1
    rw [← drive_mono (n + 1) _ _ _ (by rw [h0]; simp), drive, hr]
    exact drive_varBursts hf (n + 1) 2 (o.initial, a) 0 0 s1 st' hst' (n + 1) b s k2

/-- **C101.**  So the optimizer really keeps the best plan for whoever loops over its generator: when a loop over `short_bursts` comes to its
regular end, `best_part` and `best_score` are the last of the best among the initial plan and the plans handed to the loop, with their
scores at that time. -/
theorem C101_best_after_loop {A : Type} [LinearOrder A] (o : OptCfg S R A) (accept : R → M S Bool) (length : ℤ) (num fuel n : ℕ) (s : S) (b : BestAttr R A)
    (h : (drive o fuel n (.fresh (.bursts accept length num)) b s).status = some (.ok ())) :
    ∃ (a0 : A) (obs : List (R × A)) (best : R × A), (∃ s s', o.score o.initial s = (.ok a0, s')) ∧
      obs.map Prod.fst = (drive o fuel n (.fresh (.bursts accept length num)) b s).yielded ∧
      (∀ x ∈ obs, ∃ s s', o.score x.1 s = (.ok x.2, s')) ∧
      (drive o fuel n (.fresh (.bursts accept length num)) b s).best = known best ∧ LastBest o.maximize ((o.initial, a0) :: obs) best := by
  rcases C101_short_bursts_converse o accept length num fuel n s b _ h with ⟨a0, run, h1, h2⟩ | ⟨e, s1, -, h2⟩
  · rw [h2] at h ⊢
    have hk := C47_short_bursts o accept length num fuel n s a0 run h1
    refine ⟨a0, run.trace.map Snap.obs, run.best, hk.initial, ?_, ?_, rfl, ?_⟩
    · rcases hk.yields with hy | ⟨x, -, e, he⟩
      · show _ = run.yielded
        rw [hy, List.map_map]
        rfl
      · have : run.status = some (.ok ()) := h
        rw [he] at this
        cases this
    · intro x hx
      obtain ⟨y, hy, rfl⟩ := List.mem_map.1 hx
      exact hk.scores y hy
    · have := hk.best run.trace.length le_rfl
      rw [List.take_length] at this
      rw [hk.final]
      exact this
  · cases h2

/-- the hypotheses hold: three bursts of three states, consumed by a loop -/
example : (drive exOpt 20 20 (.fresh (.bursts (fun _ s => (.ok true, s)) 3 3)) ⟨none, none⟩ [3, 3, 1, 6, 6, 6]).status = some (.ok ()) ∧
    (drive exOpt 20 20 (.fresh (.bursts (fun _ s => (.ok true, s)) 3 3)) ⟨none, none⟩ [3, 3, 1, 6, 6, 6]).yielded = [1, 4, 7, 7, 8, 14, 8, 14, 20] ∧
    (drive exOpt 20 20 (.fresh (.bursts (fun _ s => (.ok true, s)) 3 3)) ⟨none, none⟩ [3, 3, 1, 6, 6, 6]).best.part = some 8 := by
  decide +kernel

/-- a single run and bursts of variable length -/
example : (drive exOpt 20 20 (.fresh (.single (fun _ s => (.ok true, s)) 5)) ⟨none, none⟩ [3, 3, 1, 6, 7, 6]).yielded = [1, 4, 7, 8, 14] ∧
    (drive exOpt 20 20 (.fresh (.variable (fun _ s => (.ok true, s)) 7 1)) ⟨none, none⟩ [3, 3, 7, 7, 7, 7]).yielded = [1, 4, 4, 7, 7, 14, 7] := by
  decide +kernel

end GC

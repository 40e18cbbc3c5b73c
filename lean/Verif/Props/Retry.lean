import Verif.Model.Chain
import Verif.Lemmas.Tape
import Mathlib.Algebra.Order.Field.GeomSum
import Mathlib.Algebra.Field.GeomSum
import Mathlib.Algebra.Order.Archimedean.Basic
import Mathlib.Tactic.Ring
import Mathlib.Tactic.Linarith

/-!
# What retrying does to the probabilities (C75)

`MarkovChain.__next__` draws proposals until one satisfies the constraints.  The world is the tape of random numbers; the states of the chain are
values.
-/

set_option linter.unusedSectionVars false
set_option autoImplicit false

namespace GC

variable {R : Type}

/-- The average over the tapes of what happens after a program that draws at most `k` numbers: the numbers left on the tape are as random as new ones. -/
theorem avg_draws {α : Type} {N : ℕ} (hN : 0 < N) {k : ℕ} {m : M Tape α} (h : Draws k m) {Φ : Py α → Tape → ℚ} {ψ : Py α → ℚ} (j L : ℕ) (hL : k + j ≤ L)
    (hΦ : ∀ r L', j ≤ L' → avg N L' (Φ r) = ψ r) (L0 : ℕ) (hL0 : k ≤ L0) :
    avg N L (fun t => Φ (m t).1 (m t).2) = avg N L0 (fun t => ψ (m t).1) := by
  induction h generalizing L L0 with
  | @done k m r h =>
    simp only [h]
    rw [hΦ r L (by omega), avg_const hN]
  | @draw k m q h hq ih =>
    obtain ⟨L, rfl⟩ : ∃ L', L = L' + 1 := ⟨L - 1, by omega⟩
    obtain ⟨L0, rfl⟩ : ∃ L', L0 = L' + 1 := ⟨L0 - 1, by omega⟩
    rw [avg_succ, avg_succ]
    congr 1
    refine Finset.sum_congr rfl (fun i _ => ?_)
    simp only [h, List.headD_cons, List.tail_cons]
    exact ih i L (by omega) L0 (by omega)

/-- The probability that a call of `next` returns within `n` proposals with a result that has the property -/
def stepProb (N L : ℕ) (c : ChainCfg Tape R) (ch : Chain Tape R) (n : ℕ) (E : Py R → Prop) [DecidablePred E] : ℚ :=
  avg N L (fun t => match ch.next c n t with
    | some r => if E r.1 then 1 else 0
    | none => 0)

/-- the proposal was made and violates a constraint -/
def refused (valid : R → Bool) : Py R → Bool
  | .ok q => !valid q
  | .error _ => false

/-- the probability that a proposal from the current state violates a constraint -/
def invalidProb (N L : ℕ) (c : ChainCfg Tape R) (ch : Chain Tape R) (valid : R → Bool) : ℚ :=
  prob N L (c.proposal ch.state) (fun r => refused valid r = true)

/-- The world of the chain is the tape: `state.parent = None` and the constraints do not draw random numbers, a proposal draws at most `d` and the
acceptance function at most `e`. -/
structure DrawsOnly (c : ChainCfg Tape R) (ch : Chain Tape R) (valid : R → Bool) (d e : ℕ) : Prop where
  erase : ∀ x t, c.erase x t = t
  valid : ∀ x t, validator x ch.isValid t = (.ok (valid x), t)
  proposal : Draws d (c.proposal ch.state)
  accept : ∀ x, Draws e (c.accept x)

variable {c : ChainCfg Tape R} {ch : Chain Tape R} {valid : R → Bool} {d e : ℕ}

/-- what `next` does with the answer of the acceptance function -/
def outcome (ch : Chain Tape R) (E : Py R → Prop) [DecidablePred E] (q : R) : Py Bool → ℚ
  | .error err => if E (.error err) then 1 else 0
  | .ok true => if E (.ok q) then 1 else 0
  | .ok false => if E (.ok ch.state) then 1 else 0

/-- what `next` does with a proposal that passed or raised; 0 for a refused one -/
def decided (c : ChainCfg Tape R) (ch : Chain Tape R) (valid : R → Bool) (E : Py R → Prop) [DecidablePred E] : Py R → Tape → ℚ
  | .error err, _ => if E (.error err) then 1 else 0
  | .ok q, t => if valid q then outcome ch E q (c.accept q t).1 else 0

/-- the same with the probabilities of the acceptance function -/
def decidedAvg (N e : ℕ) (c : ChainCfg Tape R) (ch : Chain Tape R) (valid : R → Bool) (E : Py R → Prop) [DecidablePred E] (r : Py R) : ℚ :=
  avg N e (decided c ch valid E r)

theorem avg_draws_len {α : Type} {N : ℕ} (hN : 0 < N) {k : ℕ} {m : M Tape α} (h : Draws k m) (g : Py α → ℚ) (L L0 : ℕ) (hL : k ≤ L) (hL0 : k ≤ L0) :
    avg N L (fun t => g (m t).1) = avg N L0 (fun t => g (m t).1) :=
  avg_draws hN h (Φ := fun r _ => g r) 0 L (by omega) (fun r L' _ => avg_const hN L' (g r)) L0 hL0

theorem decided_avg (h : DrawsOnly c ch valid d e) {N : ℕ} (hN : 0 < N) (E : Py R → Prop) [DecidablePred E] (r : Py R) (L : ℕ) (hL : e ≤ L) :
    avg N L (decided c ch valid E r) = decidedAvg N e c ch valid E r := by
  unfold decidedAvg
  cases r with
  | error err => exact (avg_const hN L _).trans (avg_const hN e _).symm
  | ok q =>
    cases hv : valid q
    · have h0 : ∀ t, decided c ch valid E (.ok q) t = 0 := fun t => by simp [decided, hv]
      rw [avg_congr N L h0, avg_congr N e h0, avg_const hN, avg_const hN]
    · have h0 : ∀ t, decided c ch valid E (.ok q) t = outcome ch E q (c.accept q t).1 := fun t => by
        simp only [decided, hv, if_true]
      rw [avg_congr N L h0, avg_congr N e h0]
      exact avg_draws_len hN (h.accept q) (outcome ch E q) L e hL le_rfl

/-- the value of one call -/
def loopValue (E : Py R → Prop) [DecidablePred E] : Option (Py R × Chain Tape R × Tape) → ℚ
  | some r => if E r.1 then 1 else 0
  | none => 0

theorem loop_value_succ (h : DrawsOnly c ch valid d e) (E : Py R → Prop) [DecidablePred E] (k n : ℕ) (hk : (k : ℤ) < c.totalSteps) (t : Tape) :
    loopValue E (Chain.loop c ch k (n + 1) t) =
      decided c ch valid E (c.proposal ch.state t).1 (c.proposal ch.state t).2 +
        if refused valid (c.proposal ch.state t).1 = true then loopValue E (Chain.loop c ch k n (c.proposal ch.state t).2) else 0 := by
  rw [Chain.loop, if_pos hk]
  rcases hp : c.proposal ch.state t with ⟨r, s1⟩
  cases r with
  | error err => simp [decided, refused, loopValue]
  | ok q =>
    simp only [h.erase, h.valid]
    cases hv : valid q
    · simp [decided, refused, hv]
    · simp only [decided, refused, hv, if_true, Bool.not_true, Bool.false_eq_true, if_false, add_zero]
      rcases ha : c.accept q s1 with ⟨b, s4⟩
      cases b with
      | error err => rfl
      | ok b => cases b <;> rfl

theorem loop_value (h : DrawsOnly c ch valid d e) {N : ℕ} (hN : 0 < N) (E : Py R → Prop) [DecidablePred E] (k : ℕ) (hk : (k : ℤ) < c.totalSteps) :
    ∀ (n L : ℕ), n * (d + e) ≤ L → avg N L (fun t => loopValue E (Chain.loop c ch k n t)) =
      avg N d (fun t => decidedAvg N e c ch valid E (c.proposal ch.state t).1) * ∑ i ∈ Finset.range n, invalidProb N d c ch valid ^ i := by
  intro n
  induction n with
  | zero =>
    intro L _
    simp only [Chain.loop, loopValue, Finset.range_zero, Finset.sum_empty, mul_zero]
    exact avg_const hN L 0
  | succ n ih =>
    intro L hL
    have hL' : n * (d + e) + (d + e) ≤ L := by rw [← Nat.succ_mul]; exact hL
    set A := avg N d (fun t => decidedAvg N e c ch valid E (c.proposal ch.state t).1) with hA
    set S := ∑ i ∈ Finset.range n, invalidProb N d c ch valid ^ i with hS
    rw [avg_congr N L (loop_value_succ h E k n hk), avg_add]
    have h1 : avg N L (fun t => decided c ch valid E (c.proposal ch.state t).1 (c.proposal ch.state t).2) = A :=
      avg_draws hN h.proposal (Φ := decided c ch valid E) e L (by omega) (fun r L' hl => decided_avg h hN E r L' hl) d le_rfl
    have h2 : avg N L (fun t => if refused valid (c.proposal ch.state t).1 = true then loopValue E (Chain.loop c ch k n (c.proposal ch.state t).2) else 0) =
        avg N d (fun t => (A * S) * (if refused valid (c.proposal ch.state t).1 = true then 1 else 0)) := by
      refine avg_draws hN h.proposal (Φ := fun r t => if refused valid r = true then loopValue E (Chain.loop c ch k n t) else 0)
        (ψ := fun r => (A * S) * (if refused valid r = true then 1 else 0)) (n * (d + e)) L (by omega) ?_ d le_rfl
      intro r L' hl
      by_cases hr : refused valid r = true
      · simp only [hr, if_true, mul_one]
        exact ih L' hl
      · simp only [hr]
        rw [if_neg (by simp), mul_zero]
        exact avg_const hN L' 0
    rw [h1, h2, avg_mul]
    have h3 : avg N d (fun t => if refused valid (c.proposal ch.state t).1 = true then (1 : ℚ) else 0) = invalidProb N d c ch valid := rfl
    rw [h3, Finset.sum_range_succ', pow_zero]
    simp only [pow_succ, ← Finset.sum_mul]
    rw [← hS]
    ring

theorem stepProb_eq {N : ℕ} (E : Py R → Prop) [DecidablePred E] (k : ℕ) (hc : ch.counter = some (k + 1)) (n L : ℕ) :
    stepProb N L c ch n E = avg N L (fun t => loopValue E (Chain.loop c ch (k + 1) n t)) := by
  unfold stepProb Chain.next
  rw [hc]
  refine avg_congr N L (fun t => ?_)
  dsimp only
  cases Chain.loop c ch (k + 1) n t <;> rfl

theorem invalidProb_len (h : DrawsOnly c ch valid d e) {N : ℕ} (hN : 0 < N) (L : ℕ) (hL : d ≤ L) : invalidProb N L c ch valid = invalidProb N d c ch valid :=
  avg_draws_len hN h.proposal (fun r => if refused valid r = true then (1 : ℚ) else 0) L d hL le_rfl

/-- **C75** While the chain has steps left: the probability that `next` returns within `n` proposals with an outcome `E` is the probability that the
first proposal alone decides the step with that outcome, times `1 + ρ + ... + ρ ^ (n - 1)`, where `ρ` is the probability that a proposal violates
a constraint. -/
theorem C75_retry (c : ChainCfg Tape R) (ch : Chain Tape R) (valid : R → Bool) (d e : ℕ) (h : DrawsOnly c ch valid d e) (N : ℕ) (hN : 0 < N)
    (E : Py R → Prop) [DecidablePred E] (k : ℕ) (hc : ch.counter = some (k + 1)) (hk : ((k + 1 : ℕ) : ℤ) < c.totalSteps)
    (n L L1 : ℕ) (hL : n * (d + e) ≤ L) (hL1 : d + e ≤ L1) :
    stepProb N L c ch n E = stepProb N L1 c ch 1 E * ∑ i ∈ Finset.range n, invalidProb N L1 c ch valid ^ i := by
  rw [stepProb_eq E k hc, stepProb_eq E k hc, loop_value h hN E (k + 1) hk n L hL, loop_value h hN E (k + 1) hk 1 L1 (by omega),
    invalidProb_len h hN L1 (by omega)]
  simp

theorem invalidProb_nonneg (N L : ℕ) (c : ChainCfg Tape R) (ch : Chain Tape R) (valid : R → Bool) : 0 ≤ invalidProb N L c ch valid := by
  unfold invalidProb prob avg
  refine div_nonneg (Finset.sum_nonneg (fun t _ => ?_)) (by positivity)
  dsimp only
  split <;> norm_num

/-- the step returns or raises within one proposal exactly when the proposal is not refused -/
theorem stepProb_one_true (h : DrawsOnly c ch valid d e) {N : ℕ} (hN : 0 < N) (k : ℕ) (hc : ch.counter = some (k + 1))
    (hk : ((k + 1 : ℕ) : ℤ) < c.totalSteps) (L : ℕ) : stepProb N L c ch 1 (fun _ => True) = 1 - invalidProb N L c ch valid := by
  rw [stepProb_eq _ k hc, eq_sub_iff_add_eq]
  unfold invalidProb prob
  rw [← avg_add]
  refine (avg_congr N L (ψ := fun _ => 1) (fun t => ?_)).trans (avg_const hN L 1)
  rw [loop_value_succ h _ (k + 1) 0 hk]
  have h0 : ∀ s, loopValue (fun _ => True) (Chain.loop c ch (k + 1) 0 s) = 0 := fun _ => rfl
  rw [h0, ite_self, add_zero]
  rcases c.proposal ch.state t with ⟨r, s⟩
  cases r with
  | error err => simp [decided, refused]
  | ok q =>
    cases hv : valid q
    · simp [decided, refused, hv]
    · simp only [decided, refused, hv, if_true, Bool.not_true, Bool.false_eq_true, if_false, add_zero]
      rcases c.accept q s with ⟨b, s'⟩
      cases b with
      | error err => rfl
      | ok b => cases b <;> rfl

/-- **C75 (waiting)** After `n` proposals the step is still undecided with probability `ρ ^ n`. -/
theorem C75_waiting (c : ChainCfg Tape R) (ch : Chain Tape R) (valid : R → Bool) (d e : ℕ) (h : DrawsOnly c ch valid d e) (N : ℕ) (hN : 0 < N)
    (k : ℕ) (hc : ch.counter = some (k + 1)) (hk : ((k + 1 : ℕ) : ℤ) < c.totalSteps) (n L L1 : ℕ) (hL : n * (d + e) ≤ L) (hL1 : d + e ≤ L1) :
    stepProb N L c ch n (fun _ => True) = 1 - invalidProb N L1 c ch valid ^ n := by
  rw [C75_retry c ch valid d e h N hN _ k hc hk n L L1 hL hL1, stepProb_one_true h hN k hc hk, mul_neg_geom_sum]

/-- **C75 (conditioning)** If some proposal satisfies the constraints, then given that the step is decided within `n ≥ 1` proposals the outcome `E` has
the probability that it has for the first proposal given that this satisfies the constraints; so the number of retries is independent of the outcome. -/
theorem C75_conditional (c : ChainCfg Tape R) (ch : Chain Tape R) (valid : R → Bool) (d e : ℕ) (h : DrawsOnly c ch valid d e) (N : ℕ) (hN : 0 < N)
    (E : Py R → Prop) [DecidablePred E] (k : ℕ) (hc : ch.counter = some (k + 1)) (hk : ((k + 1 : ℕ) : ℤ) < c.totalSteps)
    (n L L1 : ℕ) (hn : 0 < n) (hL : n * (d + e) ≤ L) (hL1 : d + e ≤ L1) (hρ : invalidProb N L1 c ch valid < 1) :
    stepProb N L c ch n E / stepProb N L c ch n (fun _ => True) = stepProb N L1 c ch 1 E / (1 - invalidProb N L1 c ch valid) := by
  rw [C75_retry c ch valid d e h N hN _ k hc hk n L L1 hL hL1, C75_retry c ch valid d e h N hN _ k hc hk n L L1 hL hL1,
    stepProb_one_true h hN k hc hk]
  have h0 : 0 ≤ invalidProb N L1 c ch valid := invalidProb_nonneg N L1 c ch valid
  have hs : (∑ i ∈ Finset.range n, invalidProb N L1 c ch valid ^ i) ≠ 0 := by
    have : 0 < ∑ i ∈ Finset.range n, invalidProb N L1 c ch valid ^ i := by
      refine Finset.sum_pos' (fun i _ => pow_nonneg h0 i) ⟨0, Finset.mem_range.2 hn, by simp⟩
    exact this.ne'
  rw [mul_div_mul_right _ _ hs]

/-- **C75 (limit)** ... and without a limit on the number of proposals this is the probability of the outcome. -/
theorem C75_limit (c : ChainCfg Tape R) (ch : Chain Tape R) (valid : R → Bool) (d e : ℕ) (h : DrawsOnly c ch valid d e) (N : ℕ) (hN : 0 < N)
    (E : Py R → Prop) [DecidablePred E] (k : ℕ) (hc : ch.counter = some (k + 1)) (hk : ((k + 1 : ℕ) : ℤ) < c.totalSteps)
    (L1 : ℕ) (hL1 : d + e ≤ L1) (hρ : invalidProb N L1 c ch valid < 1) (ε : ℚ) (hε : 0 < ε) :
    ∃ n0, ∀ n L, n0 ≤ n → n * (d + e) ≤ L → |stepProb N L c ch n E - stepProb N L1 c ch 1 E / (1 - invalidProb N L1 c ch valid)| < ε := by
  have h0 : 0 ≤ invalidProb N L1 c ch valid := invalidProb_nonneg N L1 c ch valid
  set ρ := invalidProb N L1 c ch valid with hρd
  set A := stepProb N L1 c ch 1 E with hA
  have hpos : 0 < 1 - ρ := by linarith
  obtain ⟨n0, hn0⟩ := exists_pow_lt_of_lt_one (show 0 < ε / (|A / (1 - ρ)| + 1) by positivity) hρ
  refine ⟨n0, fun n L hn hL => ?_⟩
  rw [C75_retry c ch valid d e h N hN _ k hc hk n L L1 hL hL1, ← hρd, ← hA, geom_sum_eq (ne_of_lt hρ)]
  have e1 : A * ((ρ ^ n - 1) / (ρ - 1)) - A / (1 - ρ) = -(A / (1 - ρ) * ρ ^ n) := by
    have : ρ - 1 ≠ 0 := by linarith
    have : 1 - ρ ≠ 0 := by linarith
    field_simp
    ring
  rw [e1, abs_neg, abs_mul, abs_of_nonneg (pow_nonneg h0 n)]
  have h2 : ρ ^ n < ε / (|A / (1 - ρ)| + 1) := lt_of_le_of_lt (pow_le_pow_of_le_one h0 hρ.le hn) hn0
  have h3 : 0 < |A / (1 - ρ)| + 1 := by positivity
  rw [lt_div_iff₀ h3] at h2
  have h4 := pow_nonneg h0 n
  nlinarith [abs_nonneg (A / (1 - ρ))]

end GC

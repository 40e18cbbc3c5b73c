import Verif.Lemmas.ChainLaw
import Verif.Lemmas.Poisson

/-!
# The law of a whole run of a `MarkovChain` that retries

As in `ChainLaw`, but the constraints may refuse proposals; the loop of `MarkovChain.__next__` (chain.py:184-196) then makes another one.  The number of
proposals in a step is not bounded, so the mean values are those of runs with at most `f` proposals in each step, for every `f`.
-/

set_option linter.unusedSectionVars false
set_option autoImplicit false

namespace GC

variable {R α : Type}

/-- one round of the loop of `__next__` (chain.py:184-196): a proposal, the constraints, the acceptance function.  `none`: refused by the constraints. -/
def oneTry (c : ChainCfg Tape R) (cs : List (Constraint Tape R)) (x : R) : M Tape (Option R) := do
  let q ← c.proposal x
  let v ← validator q cs
  if v then do
    let b ← c.accept q
    pure (some (if b then q else x))
  else pure none

/-- how the loop of `__next__` goes on after a round -/
def afterTry (c : ChainCfg Tape R) (ch : Chain Tape R) (k f : ℕ) : Py (Option R) × Tape → Option (Py R × Chain Tape R × Tape)
  | (.error e, s) => some (.error e, ch, s)
  | (.ok none, s) => Chain.loop c ch k f s
  | (.ok (some y), s) => some (.ok y, ⟨ch.isValid, some (k + 1), y⟩, s)

theorem loop_oneTry (c : ChainCfg Tape R) (he : ∀ x t, c.erase x t = t) (ch : Chain Tape R) (k f : ℕ) (hk : (k : ℤ) < c.totalSteps) (t : Tape) :
    Chain.loop c ch k (f + 1) t = afterTry c ch k f (oneTry c ch.isValid ch.state t) := by
  rw [Chain.loop, if_pos hk]
  show _ = afterTry c ch k f (M.bind (c.proposal ch.state) _ t)
  unfold M.bind
  rcases c.proposal ch.state t with ⟨r, s1⟩
  cases r with
  | error e => rfl
  | ok q =>
    simp only [he]
    show _ = afterTry c ch k f (M.bind (validator q ch.isValid) _ s1)
    unfold M.bind
    rcases validator q ch.isValid s1 with ⟨r, s2⟩
    cases r with
    | error e => rfl
    | ok v =>
      cases v with
      | false => rfl
      | true =>
        show _ = afterTry c ch k f (M.bind (c.accept q) _ s2)
        unfold M.bind
        dsimp only
        rcases c.accept q s2 with ⟨r, s3⟩
        cases r with
        | error e => rfl
        | ok b => cases b <;> rfl

/-- a round of the loop led to a state with this projection -/
def triedTo [DecidableEq α] (φ : R → α) (y : α) : Py (Option R) → ℚ
  | .ok (some z) => if φ z = y then 1 else 0
  | _ => 0

/-- a round of the loop was refused -/
def wasRefused : Py (Option R) → ℚ
  | .ok none => 1
  | _ => 0

/-- What has to be known about one round of the loop: good states lead to good states or to an exception; from a state with projection `x` the round leads
to `y` with probability `A x y` and is refused with probability `ρ x`.  (`StopIteration` is excluded, as `list` would take it for the end of the run.) -/
structure TryLaw [DecidableEq α] (N d : ℕ) (c : ChainCfg Tape R) (cs : List (Constraint Tape R)) (Good : R → Prop) (φ : R → α) (S : Finset α)
    (A : α → α → ℚ) (ρ : α → ℚ) : Prop where
  erase : ∀ x t, c.erase x t = t
  draws : ∀ x, Good x → Draws d (oneTry c cs x)
  good : ∀ x, Good x → ∀ t y, (oneTry c cs x t).1 = .ok (some y) → Good y
  noStop : ∀ x, Good x → ∀ t, (oneTry c cs x t).1 ≠ .error .stopIteration
  mem : ∀ x, Good x → φ x ∈ S
  law : ∀ x, Good x → ∀ y ∈ S, avg N d (fun t => triedTo φ y (oneTry c cs x t).1) = A (φ x) y
  refuse : ∀ x, Good x → avg N d (fun t => wasRefused (oneTry c cs x t).1) = ρ (φ x)

/-- the probability of a step with at most `f` rounds -/
def triedKernel (A : α → α → ℚ) (ρ : α → ℚ) (f : ℕ) (x y : α) : ℚ := A x y * ∑ i ∈ Finset.range f, ρ x ^ i

/-- what comes after a step -/
def loopThen (Φ : R → Chain Tape R → Tape → ℚ) : Option (Py R × Chain Tape R × Tape) → ℚ
  | some (.ok y, ch, t) => Φ y ch t
  | _ => 0

section law
variable [DecidableEq α] {N d : ℕ} {c : ChainCfg Tape R} {cs : List (Constraint Tape R)} {Good : R → Prop} {φ : R → α} {S : Finset α} {A : α → α → ℚ} {ρ : α → ℚ}

/-- the mean of what comes after a step, if it depends on the projection only -/
theorem TryLaw.loop (h : TryLaw N d c cs Good φ S A ρ) (hN : 0 < N) {x : R} (hx : Good x) (k : ℕ) (hk : (k : ℤ) < c.totalSteps)
    {Φ : R → Chain Tape R → Tape → ℚ} {ψ : α → ℚ} (j : ℕ) (hΦ : ∀ y, Good y → ∀ L, j ≤ L → avg N L (Φ y ⟨cs, some (k + 1), y⟩) = ψ (φ y)) (k0 : Option ℕ) :
    ∀ f L, f * d + j ≤ L → avg N L (fun t => loopThen Φ (Chain.loop c ⟨cs, k0, x⟩ k f t)) = ∑ y ∈ S, triedKernel A ρ f (φ x) y * ψ y := by
  intro f
  induction f with
  | zero =>
    intro L _
    simp only [Chain.loop, loopThen, triedKernel, Finset.range_zero, Finset.sum_empty, mul_zero, zero_mul, Finset.sum_const_zero]
    exact avg_const hN L 0
  | succ f ih =>
    intro L hL
    set v := ∑ y ∈ S, triedKernel A ρ f (φ x) y * ψ y with hv
    set Ψ : Py (Option R) → Tape → ℚ := fun r t => match r with
      | .ok none => loopThen Φ (Chain.loop c ⟨cs, k0, x⟩ k f t)
      | .ok (some y) => Φ y ⟨cs, some (k + 1), y⟩ t
      | .error _ => 0 with hΨ
    set χ : Py (Option R) → ℚ := fun r => match r with
      | .ok none => v
      | .ok (some y) => ψ (φ y)
      | .error _ => 0 with hχ
    have hpoint : ∀ t, loopThen Φ (Chain.loop c ⟨cs, k0, x⟩ k (f + 1) t) = Ψ (oneTry c cs x t).1 (oneTry c cs x t).2 := by
      intro t
      rw [loop_oneTry c h.erase _ k f hk t]
      show loopThen Φ (afterTry c _ k f (oneTry c cs x t)) = _
      rcases oneTry c cs x t with ⟨_ | _ | y, s⟩ <;> rfl
    have hfd : f * d + d + j ≤ L := by rw [← Nat.succ_mul]; exact hL
    rw [avg_congr N L hpoint, avg_draws_reach hN (h.draws x hx) (Φ := Ψ) (ψ := χ) (f * d + j) L (by omega) ?_ d le_rfl]
    · have hsplit : ∀ t, χ (oneTry c cs x t).1 = v * wasRefused (oneTry c cs x t).1 + ∑ y ∈ S, ψ y * triedTo φ y (oneTry c cs x t).1 := by
        intro t
        have hgood := h.good x hx t
        generalize (oneTry c cs x t).1 = r at hgood ⊢
        rcases r with e | _ | y
        · simp [hχ, wasRefused, triedTo]
        · simp [hχ, wasRefused, triedTo]
        · simp only [hχ, wasRefused, triedTo, mul_zero, zero_add]
          rw [Finset.sum_eq_single_of_mem (φ y) (h.mem y (hgood y rfl)), if_pos rfl, mul_one]
          intro z _ hz
          rw [if_neg (Ne.symm hz), mul_zero]
      rw [avg_congr N d hsplit, avg_add, avg_mul, h.refuse x hx, avg_finset_sum, hv, Finset.sum_mul, ← Finset.sum_add_distrib]
      refine Finset.sum_congr rfl (fun y hy => ?_)
      rw [avg_mul, h.law x hx y hy]
      unfold triedKernel
      rw [Finset.sum_range_succ', pow_zero]
      have : ∑ i ∈ Finset.range f, ρ (φ x) ^ (i + 1) = ρ (φ x) * ∑ i ∈ Finset.range f, ρ (φ x) ^ i := by
        rw [Finset.mul_sum]
        exact Finset.sum_congr rfl (fun i _ => by rw [pow_succ, mul_comm])
      rw [this]
      ring
    · intro t L' hL'
      have hgood := h.good x hx t
      generalize (oneTry c cs x t).1 = r at hgood ⊢
      rcases r with e | _ | y
      · exact avg_const hN L' 0
      · exact ih L' hL'
      · exact hΦ y (hgood y rfl) L' (by omega)

/-- a step from a good state does not raise `StopIteration` -/
theorem TryLaw.no_stop (h : TryLaw N d c cs Good φ S A ρ) {x : R} (hx : Good x) (k : ℕ) (hk : (k : ℤ) < c.totalSteps) (k0 : Option ℕ) :
    ∀ f t ch' t', Chain.loop c ⟨cs, k0, x⟩ k f t ≠ some (.error .stopIteration, ch', t') := by
  intro f
  induction f with
  | zero => intro t ch' t' he; simp [Chain.loop] at he
  | succ f ih =>
    intro t ch' t' he
    rw [loop_oneTry c h.erase _ k f hk t] at he
    have hr := h.noStop x hx t
    rcases ho : oneTry c cs x t with ⟨_ | _ | y, s⟩
    · simp only [ho] at he hr
      simp only [afterTry, Option.some.injEq, Prod.mk.injEq] at he
      exact hr (by rw [Except.error.inj he.1])
    · simp only [ho] at he
      exact ih s ch' t' he
    · simp only [ho] at he
      simp [afterTry] at he

/-- The states of `list(chain)` with at most `f` rounds in each step: the mean of every function of the list of the projections. -/
theorem TryLaw.states (h : TryLaw N d c cs Good φ S A ρ) (hN : 0 < N) (f : ℕ) (hf : 0 < f) : ∀ (n k body : ℕ) (x : R), Good x →
    c.totalSteps = (k + 1 + n : ℕ) → n < body → ∀ (F : List α → ℚ) (L : ℕ), n * (f * d) ≤ L →
      avg N L (fun t => listValue φ F (Chain.collect c f body ⟨cs, some (k + 1), x⟩ t)) = pathMean S (triedKernel A ρ f) n F (φ x) := by
  intro n
  induction n with
  | zero =>
    intro k body x _ hk hbody F L _
    obtain ⟨body, rfl⟩ : ∃ b, body = b + 1 := ⟨body - 1, by omega⟩
    obtain ⟨f, rfl⟩ : ∃ b, f = b + 1 := ⟨f - 1, by omega⟩
    have : ∀ t, listValue φ F (Chain.collect c (f + 1) (body + 1) ⟨cs, some (k + 1), x⟩ t) = F [] := by
      intro t
      rw [Chain.collect]
      simp only [Chain.next]
      rw [Chain.loop, if_neg (by rw [hk]; push_cast; omega)]
      rfl
    rw [avg_congr N L this, avg_const hN]
    rfl
  | succ n ih =>
    intro k body x hx hk hbody F L hL
    obtain ⟨body, rfl⟩ : ∃ b, body = b + 1 := ⟨body - 1, by omega⟩
    have hlt : ((k + 1 : ℕ) : ℤ) < c.totalSteps := by rw [hk]; push_cast; omega
    have hpoint : ∀ t, listValue φ F (Chain.collect c f (body + 1) ⟨cs, some (k + 1), x⟩ t) =
        loopThen (fun y ch t => listValue φ (fun l => F (φ y :: l)) (Chain.collect c f body ch t)) (Chain.loop c ⟨cs, some (k + 1), x⟩ (k + 1) f t) := by
      intro t
      rw [Chain.collect]
      simp only [Chain.next]
      rcases hl : Chain.loop c ⟨cs, some (k + 1), x⟩ (k + 1) f t with _ | ⟨r, ch', t'⟩
      · rfl
      · cases r with
        | error e =>
          cases e <;> first | exact absurd hl (h.no_stop hx (k + 1) hlt (some (k + 1)) f t ch' t') | rfl
        | ok y =>
          simp only [loopThen]
          rcases Chain.collect c f body ch' t' with _ | ⟨_ | ys, ch'', t''⟩ <;> rfl
    have hnd : n * (f * d) + f * d ≤ L := by rw [← Nat.succ_mul]; exact hL
    rw [avg_congr N L hpoint]
    exact h.loop hN hx (k + 1) hlt (ψ := fun y => pathMean S (triedKernel A ρ f) n (fun l => F (y :: l)) y) (n * (f * d))
      (fun y hy L' hL' => ih (k + 1) body y hy (by rw [hk]; push_cast; ring) (by omega) (fun l => F (φ y :: l)) L' hL') (some (k + 1)) f L (by omega)

/-- The states of `list(chain)` with at most `f` rounds in each step. -/
theorem TryLaw.list (h : TryLaw N d c cs Good φ S A ρ) (hN : 0 < N) (n : ℕ) (hsteps : c.totalSteps = (n + 1 : ℕ)) (hinit : Good c.initial)
    (ch : Chain Tape R) (hch : ch.isValid = cs) (f body : ℕ) (hf : 0 < f) (hbody : n + 1 < body) (F : List α → ℚ) (L : ℕ) (hL : n * (f * d) ≤ L) :
    avg N L (fun t => listValue φ F (ch.list c f body t)) = pathMean S (triedKernel A ρ f) n (fun l => F (φ c.initial :: l)) (φ c.initial) := by
  obtain ⟨body, rfl⟩ : ∃ b, body = b + 1 := ⟨body - 1, by omega⟩
  rw [← h.states hN f hf n 0 body c.initial hinit (by rw [hsteps]; push_cast; ring) (by omega) _ L hL]
  refine avg_congr N L (fun t => ?_)
  unfold Chain.list Chain.iter
  rw [hch]
  rw [Chain.collect]
  simp only [Chain.next, Nat.zero_add]
  rcases Chain.collect c f body ⟨cs, some 1, c.initial⟩ t with _ | ⟨_ | ys, ch', t''⟩ <;> rfl

/-- the limit of the transition probabilities for many rounds, if no state refuses everything -/
theorem triedKernel_eq {f : ℕ} {x y : α} (hρ : ρ x < 1) : triedKernel A ρ f x y = (1 - ρ x ^ f) * (A x y / (1 - ρ x)) := by
  unfold triedKernel
  have h1 : ρ x - 1 ≠ 0 := by linarith
  have h2 : 1 - ρ x ≠ 0 := by linarith
  rw [geom_sum_eq hρ.ne]
  rw [mul_div_assoc', mul_div_assoc', div_eq_div_iff h1 h2]
  ring

end law

end GC

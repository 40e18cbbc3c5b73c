import Verif.Lemmas.Mixing
import Verif.Props.Retry

/-!
# The law of a whole run of a `MarkovChain`

If the result of every proposal passes the constraints and the law of one step depends only on a projection of the state, the list of the states of the
chain is a path of a Markov chain with finitely many states.
-/

set_option linter.unusedSectionVars false
set_option autoImplicit false

namespace GC

variable {R α : Type}

theorem avg_finset_sum (N L : ℕ) {ι : Type} (s : Finset ι) (φ : ι → Tape → ℚ) : avg N L (fun t => ∑ i ∈ s, φ i t) = ∑ i ∈ s, avg N L (φ i) := by
  unfold avg
  rw [← Finset.sum_div, Finset.sum_comm]

/-- `avg_draws`, where what follows has to be known only for the results that can occur -/
theorem avg_draws_reach {β : Type} {N : ℕ} (hN : 0 < N) {k : ℕ} {m : M Tape β} (h : Draws k m) {Φ : Py β → Tape → ℚ} {ψ : Py β → ℚ} (j L : ℕ) (hL : k + j ≤ L)
    (hΦ : ∀ t L', j ≤ L' → avg N L' (Φ (m t).1) = ψ (m t).1) (L0 : ℕ) (hL0 : k ≤ L0) :
    avg N L (fun t => Φ (m t).1 (m t).2) = avg N L0 (fun t => ψ (m t).1) := by
  induction h generalizing L L0 with
  | @done k m r h =>
    simp only [h] at hΦ ⊢
    rw [hΦ [] L (by omega), avg_const hN]
  | @draw k m q h hq ih =>
    obtain ⟨L, rfl⟩ : ∃ L', L = L' + 1 := ⟨L - 1, by omega⟩
    obtain ⟨L0, rfl⟩ : ∃ L', L0 = L' + 1 := ⟨L0 - 1, by omega⟩
    rw [avg_succ, avg_succ]
    congr 1
    refine Finset.sum_congr rfl (fun i _ => ?_)
    simp only [h, List.headD_cons, List.tail_cons]
    refine ih i L (by omega) (fun t L' hl => ?_) L0 (by omega)
    have := hΦ (i :: t) L' hl
    rw [h] at this
    exact this

/-- one step of the chain when the proposal passes the constraints (chain.py:184-196): the proposal, then the acceptance function -/
def chainStep (c : ChainCfg Tape R) (x : R) : M Tape R := do
  let q ← c.proposal x
  let b ← c.accept q
  pure (if b then q else x)

/-- the step ended in a state with this projection -/
def ended [DecidableEq α] (φ : R → α) (y : α) : Py R → ℚ
  | .ok z => if φ z = y then 1 else 0
  | .error _ => 0

/-- What has to be known about one step: `Good` states lead to good states, and the next projection has the law `K`. -/
structure StepLaw [DecidableEq α] (N d : ℕ) (c : ChainCfg Tape R) (cs : List (Constraint Tape R)) (Good : R → Prop) (φ : R → α) (S : Finset α) (K : α → α → ℚ) :
    Prop where
  erase : ∀ x t, c.erase x t = t
  draws : ∀ x, Good x → Draws d (chainStep c x)
  total : ∀ x, Good x → ∀ t, ∃ q t1 b t2, c.proposal x t = (.ok q, t1) ∧ validator q cs t1 = (.ok true, t1) ∧ c.accept q t1 = (.ok b, t2) ∧
    Good (if b then q else x)
  mem : ∀ x, Good x → φ x ∈ S
  law : ∀ x, Good x → ∀ y ∈ S, avg N d (fun t => ended φ y (chainStep c x t).1) = K (φ x) y

/-- the value of a function of the projections of the states in `list(chain)`; 0 if the list is not complete -/
def listValue (φ : R → α) (F : List α → ℚ) : Option (Py (List R) × Chain Tape R × Tape) → ℚ
  | some (.ok xs, _, _) => F (xs.map φ)
  | _ => 0

section law
variable [DecidableEq α] {N d : ℕ} {c : ChainCfg Tape R} {cs : List (Constraint Tape R)} {Good : R → Prop} {φ : R → α} {S : Finset α} {K : α → α → ℚ}

theorem StepLaw.step_ok (h : StepLaw N d c cs Good φ S K) {x : R} (hx : Good x) (t : Tape) :
    ∃ y t', chainStep c x t = (.ok y, t') ∧ Good y ∧ ∀ k fuel : ℕ, (k : ℤ) < c.totalSteps →
      Chain.loop c ⟨cs, some k, x⟩ k (fuel + 1) t = some (.ok y, ⟨cs, some (k + 1), y⟩, t') := by
  obtain ⟨q, t1, b, t2, h1, h2, h3, h4⟩ := h.total x hx t
  refine ⟨if b then q else x, t2, ?_, h4, ?_⟩
  · unfold chainStep
    show M.bind (c.proposal x) _ t = _
    unfold M.bind
    rw [h1]
    show M.bind (c.accept q) _ t1 = _
    unfold M.bind
    rw [h3]
    rfl
  · intro k fuel hk
    rw [Chain.loop, if_pos hk]
    simp only [h1, h.erase, h2, h3]
    cases b <;> rfl

theorem StepLaw.collect (h : StepLaw N d c cs Good φ S K) (hN : 0 < N) (fuel : ℕ) : ∀ (n k body : ℕ) (x : R), Good x → c.totalSteps = (k + 1 + n : ℕ) → n < body →
    ∀ (F : List α → ℚ) (L : ℕ), n * d ≤ L →
      avg N L (fun t => listValue φ F (Chain.collect c (fuel + 1) body ⟨cs, some (k + 1), x⟩ t)) = pathMean S K n F (φ x) := by
  intro n
  induction n with
  | zero =>
    intro k body x _ hk hbody F L _
    obtain ⟨body, rfl⟩ : ∃ b, body = b + 1 := ⟨body - 1, by omega⟩
    have : ∀ t, listValue φ F (Chain.collect c (fuel + 1) (body + 1) ⟨cs, some (k + 1), x⟩ t) = F [] := by
      intro t
      unfold Chain.collect Chain.next
      simp only
      rw [Chain.loop, if_neg (by rw [hk]; push_cast; omega)]
      rfl
    rw [avg_congr N L this, avg_const hN]
    rfl
  | succ n ih =>
    intro k body x hx hk hbody F L hL
    obtain ⟨body, rfl⟩ : ∃ b, body = b + 1 := ⟨body - 1, by omega⟩
    have hlt : ((k + 1 : ℕ) : ℤ) < c.totalSteps := by rw [hk]; push_cast; omega
    set Φ : Py R → Tape → ℚ := fun r t => match r with
      | .ok y => listValue φ (fun l => F (φ y :: l)) (Chain.collect c (fuel + 1) body ⟨cs, some (k + 2), y⟩ t)
      | .error _ => 0 with hΦdef
    set ψ : Py R → ℚ := fun r => match r with
      | .ok y => pathMean S K n (fun l => F (φ y :: l)) (φ y)
      | .error _ => 0 with hψdef
    have hpoint : ∀ t, listValue φ F (Chain.collect c (fuel + 1) (body + 1) ⟨cs, some (k + 1), x⟩ t) = Φ (chainStep c x t).1 (chainStep c x t).2 := by
      intro t
      obtain ⟨y, t', h1, -, h2⟩ := h.step_ok hx t
      rw [h1, hΦdef, Chain.collect]
      simp only [Chain.next, h2 (k + 1) fuel hlt]
      rcases Chain.collect c (fuel + 1) body ⟨cs, some (k + 2), y⟩ t' with _ | ⟨_ | ys, ch', t''⟩ <;> rfl
    have hnd : n * d + d ≤ L := by rw [← Nat.succ_mul]; exact hL
    rw [avg_congr N L hpoint, avg_draws_reach hN (h.draws x hx) (Φ := Φ) (ψ := ψ) (n * d) L (by omega) ?_ d le_rfl]
    · have hsplit : ∀ t, ψ (chainStep c x t).1 = ∑ y ∈ S, pathMean S K n (fun l => F (y :: l)) y * ended φ y (chainStep c x t).1 := by
        intro t
        obtain ⟨y, t', h1, hy, -⟩ := h.step_ok hx t
        rw [h1]
        simp only [hψdef, ended]
        rw [Finset.sum_eq_single_of_mem (φ y) (h.mem y hy), if_pos rfl, mul_one]
        intro z _ hz
        rw [if_neg (Ne.symm hz), mul_zero]
      rw [avg_congr N d hsplit, avg_finset_sum]
      refine Finset.sum_congr rfl (fun y hy => ?_)
      rw [avg_mul, h.law x hx y hy, mul_comm]
    · intro t L' hL'
      obtain ⟨y, t', h1, hy, -⟩ := h.step_ok hx t
      rw [h1]
      simp only [hΦdef, hψdef]
      exact ih (k + 1) body y hy (by rw [hk]; push_cast; ring) (by omega) _ L' hL'

/-- The states of `list(chain)` are a path of the Markov chain with the transition probabilities `K`: the mean of every function of the list of the
projections. -/
theorem StepLaw.list (h : StepLaw N d c cs Good φ S K) (hN : 0 < N) (n : ℕ) (hsteps : c.totalSteps = (n + 1 : ℕ)) (hinit : Good c.initial)
    (ch : Chain Tape R) (hch : ch.isValid = cs) (fuel body : ℕ) (hf : 0 < fuel) (hbody : n + 1 < body) (F : List α → ℚ) (L : ℕ) (hL : n * d ≤ L) :
    avg N L (fun t => listValue φ F (ch.list c fuel body t)) = pathMean S K n (fun l => F (φ c.initial :: l)) (φ c.initial) := by
  obtain ⟨fuel, rfl⟩ : ∃ f, fuel = f + 1 := ⟨fuel - 1, by omega⟩
  obtain ⟨body, rfl⟩ : ∃ b, body = b + 1 := ⟨body - 1, by omega⟩
  rw [← h.collect hN fuel n 0 body c.initial hinit (by rw [hsteps]; push_cast; ring) (by omega) _ L hL]
  refine avg_congr N L (fun t => ?_)
  unfold Chain.list Chain.iter
  rw [hch]
  rw [Chain.collect]
  simp only [Chain.next, Nat.zero_add]
  rcases Chain.collect c (fuel + 1) body ⟨cs, some 1, c.initial⟩ t with _ | ⟨_ | ys, ch', t''⟩ <;> rfl

end law

end GC

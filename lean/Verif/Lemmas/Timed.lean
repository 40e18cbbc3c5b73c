import Verif.Lemmas.Tilted

/-!
# Chains whose acceptance function looks at a clock

The acceptance function of `simulated_annealing` (optimization/optimization.py:155-184) depends on `part[self._step_indexer]`, the value of the `step` updater: one more than that of
the parent (optimization/optimization.py:76-80).  Here the states are pairs of a state and that number; the law of one round and the Markov chain are those of the pairs.
-/

set_option linter.unusedSectionVars false
set_option autoImplicit false

namespace GC

variable {R α A : Type}

/-- a constraint looks at the partition only, not at the value of the `step` updater (constraints/validity.py:37-61) -/
def Constraint.timed (c : Constraint Tape R) : Constraint Tape (R × ℕ) := { c with call := fun x => c.call x.1 }

/-- The optimizer (optimization/optimization.py:67-74) whose states carry the value of the `step` updater that `__init__` adds (76-80): 0 for the initial state, whose parent is
`None`, and one more than the parent's for a proposed state. -/
def OptCfg.timed (o : OptCfg Tape R A) : OptCfg Tape (R × ℕ) A where
  proposal := fun x => do
    let y ← o.proposal x.1
    pure (y, x.2 + 1)
  constraints := o.constraints.map Constraint.timed
  erase := fun x => o.erase x.1
  initial := (o.initial, 0)
  score := fun x => o.score x.1
  maximize := o.maximize
  consumer := fun x => o.consumer x.1

theorem validator_timed (x : R × ℕ) (cs : List (Constraint Tape R)) : validator x (cs.map Constraint.timed) = validator x.1 cs := by
  induction cs with
  | nil => rfl
  | cons c cs ih =>
    rw [List.map_cons]
    unfold validator
    rw [ih]
    rfl

/-- one round -/
theorem oneTry_timed (o : OptCfg Tape R A) {accept : R → M Tape Bool} {accept' : R × ℕ → M Tape Bool} (h : ∀ y t, accept y t = (.ok true, t))
    (h' : ∀ y t, accept' y t = (.ok true, t)) (x0 x : R × ℕ) (s s' : ℤ) (z : R) (t : Tape) :
    oneTry (o.timed.chain accept' x0 s) o.timed.constraints x t =
      (match (oneTry (o.chain accept z s') o.constraints x.1 t).1 with
        | .error e => .error e
        | .ok r => .ok (r.map (fun y => (y, x.2 + 1))), (oneTry (o.chain accept z s') o.constraints x.1 t).2) := by
  rw [oneTry_always (c := o.timed.chain accept' x0 s) h', oneTry_always (c := o.chain accept z s') h]
  have e : (o.timed.chain accept' x0 s).proposal x t = match o.proposal x.1 t with
      | (.error e, s) => (.error e, s)
      | (.ok q, s) => (.ok (q, x.2 + 1), s) := by
    show M.bind (o.proposal x.1) _ t = _
    unfold M.bind
    rcases o.proposal x.1 t with ⟨_ | q, s⟩ <;> rfl
  rw [e]
  have e2 : (o.chain accept z s').proposal x.1 t = o.proposal x.1 t := rfl
  rw [e2]
  rcases o.proposal x.1 t with ⟨_ | q, s⟩
  · rfl
  · dsimp only
    have ev : validator (q, x.2 + 1) o.timed.constraints = validator q o.constraints := validator_timed (q, x.2 + 1) o.constraints
    rw [ev]
    rcases validator q o.constraints s with ⟨_ | v, s1⟩
    · rfl
    · cases v <;> rfl

/-- the rates of the pairs: the clock, which shows the number of steps modulo `T`, goes on by one -/
def clockRate (T : ℕ) (B : α → α → ℚ) (x y : α × ℕ) : ℚ := if y.2 = (x.2 + 1) % T then B x.1 y.1 else 0

/-- the pairs -/
def clockSet (S : Finset α) (T : ℕ) : Finset (α × ℕ) := S ×ˢ Finset.range T

/-- the law of an optimizer that accepts always, with the clock -/
theorem OptLaw.timed [LinearOrder A] [DecidableEq α] {N d T : ℕ} {o : OptCfg Tape R A} {accept : R → M Tape Bool} {Good : R → Prop} {φ : R → α} {S : Finset α} {B : α → α → ℚ} {ρ : α → ℚ} {σ : α → A}
    (h : OptLaw N d o accept Good φ S B ρ σ) (hN : 0 < N) (hacc : ∀ y t, accept y t = (.ok true, t)) (hT : 0 < T) :
    OptLaw N d o.timed (fun _ => pure true) (fun x => Good x.1) (fun x => (φ x.1, x.2 % T)) (clockSet S T) (clockRate T B) (fun m => ρ m.1) (fun m => σ m.1) where
  tries := by
    intro x0 steps
    have hl := h.tries x0.1 steps
    have e := fun x t => oneTry_timed o hacc (accept' := fun _ => pure true) (fun _ _ => rfl) x0 x steps steps x0.1 t
    refine ⟨fun x t => hl.erase x.1 t, fun x hx => ?_, fun x hx t y hy => ?_, fun x hx t hy => ?_, fun x hx => ?_, fun x hx y hy => ?_, fun x hx => ?_⟩
    · have := (hl.draws x.1 hx).bind (j := 0) (f := fun r => (pure (r.map (fun y => (y, x.2 + 1))) : M Tape (Option (R × ℕ)))) (fun r => .done _ (fun t => rfl))
      refine Eq.mp ?_ this
      congr 1
      funext t
      rw [e x t]
      show M.bind _ _ t = _
      unfold M.bind
      rcases oneTry (o.chain accept x0.1 steps) o.constraints x.1 t with ⟨_ | r, s⟩ <;> rfl
    · have hg := hl.good x.1 hx t
      rw [e x t] at hy
      generalize (oneTry (o.chain accept x0.1 steps) o.constraints x.1 t).1 = r at hg hy
      rcases r with e | _ | z
      · cases hy
      · cases hy
      · cases hy
        exact hg z rfl
    · have hg := hl.noStop x.1 hx t
      rw [e x t] at hy
      generalize (oneTry (o.chain accept x0.1 steps) o.constraints x.1 t).1 = r at hg hy
      rcases r with e | r
      · exact hg (by cases hy; rfl)
      · cases hy
    · exact Finset.mem_product.2 ⟨hl.mem x.1 hx, Finset.mem_range.2 (Nat.mod_lt _ hT)⟩
    · unfold clockRate
      have hy' := (Finset.mem_product.1 hy).1
      have hmod : (x.2 % T + 1) % T = (x.2 + 1) % T := Nat.mod_add_mod _ _ _
      dsimp only
      rw [hmod]
      by_cases hk : y.2 = (x.2 + 1) % T
      · rw [if_pos hk, ← hl.law x.1 hx y.1 hy']
        refine avg_congr N d (fun t => ?_)
        rw [e x t]
        rcases (oneTry (o.chain accept x0.1 steps) o.constraints x.1 t).1 with e | _ | z
        · rfl
        · rfl
        · show (if (φ z, (x.2 + 1) % T) = y then (1 : ℚ) else 0) = if φ z = y.1 then 1 else 0
          refine if_congr ?_ rfl rfl
          rw [Prod.ext_iff]
          exact ⟨fun h => h.1, fun h => ⟨h, hk.symm⟩⟩
      · rw [if_neg hk, ← avg_const hN d 0]
        refine avg_congr N d (fun t => ?_)
        rw [e x t]
        rcases (oneTry (o.chain accept x0.1 steps) o.constraints x.1 t).1 with e | _ | z
        · rfl
        · rfl
        · show (if (φ z, (x.2 + 1) % T) = y then (1 : ℚ) else 0) = 0
          exact if_neg (fun h => hk (by rw [← h]))
    · dsimp only
      rw [← hl.refuse x.1 hx]
      refine avg_congr N d (fun t => ?_)
      rw [e x t]
      rcases (oneTry (o.chain accept x0.1 steps) o.constraints x.1 t).1 with e | _ | z <;> rfl
  score := fun x hx t => h.score x.1 hx t
  consumer := fun x hx t => h.consumer x.1 hx t
  valid := fun x hx t => by
    have := h.valid x.1 hx t
    rw [← this]
    exact congrFun (validator_timed x o.constraints) t

section kernel
variable [DecidableEq α] {S : Finset α} {T : ℕ} {K : α → α → ℚ}

theorem triedKernel_clock (B : α → α → ℚ) (ρ : α → ℚ) (f : ℕ) : triedKernel (clockRate T B) (fun m => ρ m.1) f = clockRate T (triedKernel B ρ f) := by
  funext x y
  unfold triedKernel clockRate
  split_ifs
  · rfl
  · exact zero_mul _

theorem clock_mem {x : α × ℕ} : x ∈ clockSet S T ↔ x.1 ∈ S ∧ x.2 < T := by
  unfold clockSet
  rw [Finset.mem_product, Finset.mem_range]

theorem clock_isKernel (hK : IsKernel S K) (hT : 0 < T) : IsKernel (clockSet S T) (clockRate T K) where
  nonneg := by
    intro x hx y hy
    unfold clockRate
    split_ifs
    · exact hK.nonneg _ (clock_mem.1 hx).1 _ (clock_mem.1 hy).1
    · exact le_rfl
  sum := by
    intro x hx
    unfold clockSet clockRate
    rw [Finset.sum_product, ← hK.sum x.1 (clock_mem.1 hx).1]
    refine Finset.sum_congr rfl (fun y _ => ?_)
    dsimp only
    rw [Finset.sum_ite_eq', if_pos (Finset.mem_range.2 (Nat.mod_lt _ hT))]

theorem clock_posStep {x y : α × ℕ} : PosStep (clockSet S T) (clockRate T K) x y ↔ PosStep S K x.1 y.1 ∧ x.2 < T ∧ y.2 < T ∧ y.2 = (x.2 + 1) % T := by
  unfold PosStep clockRate
  rw [clock_mem, clock_mem]
  constructor
  · rintro ⟨h1, h2, h3⟩
    split_ifs at h3 with h
    · exact ⟨⟨h1.1, h2.1, h3⟩, h1.2, h2.2, h⟩
    · exact absurd h3 (lt_irrefl _)
  · rintro ⟨⟨h1, h2, h3⟩, h4, h5, h6⟩
    exact ⟨⟨h1, h4⟩, ⟨h2, h5⟩, by rwa [if_pos h6]⟩

theorem clock_optimal [LinearOrder A] {σ : α → A} {mx : Bool} (hT : 0 < T) {x : α × ℕ} : IsOptimal (clockSet S T) (fun m => σ m.1) mx x ↔ IsOptimal S σ mx x.1 := by
  constructor
  · intro h m hm
    exact h (m, 0) (clock_mem.2 ⟨hm, hT⟩)
  · intro h m hm
    exact h m.1 (clock_mem.1 hm).1

/-- paths with the clock -/
theorem clock_reach {w : α × ℕ → α × ℕ → ℚ} (hT : 0 < T) (hw : ∀ x y, PosStep (clockSet S T) (clockRate T K) x y → 0 < w x y) {x y : α} (h : Relation.ReflTransGen (PosStep S K) x y)
    {k : ℕ} (hk : k < T) : ∃ k', k' < T ∧ Relation.ReflTransGen (fun u v => PosStep (clockSet S T) (clockRate T K) u v ∧ 0 < w u v) (x, k) (y, k') := by
  induction h with
  | refl => exact ⟨k, hk, .refl⟩
  | @tail u v _ h ih =>
    obtain ⟨k', hk', hr⟩ := ih
    have : PosStep (clockSet S T) (clockRate T K) (u, k') (v, (k' + 1) % T) := clock_posStep.2 ⟨h, hk', Nat.mod_lt _ hT, rfl⟩
    exact ⟨(k' + 1) % T, Nat.mod_lt _ hT, hr.tail ⟨this, hw _ _ this⟩⟩

/-- A long run with a clock and positive acceptance probabilities finds an optimal state almost surely, if every state can be reached from every other one. -/
theorem clock_find [LinearOrder A] {σ : α → A} {mx : Bool} (hK : IsKernel S K) (hT : 0 < T) {w : α × ℕ → α × ℕ → ℚ} (hc : IsChance (clockSet S T) w)
    (hw : ∀ x y, PosStep (clockSet S T) (clockRate T K) x y → 0 < w x y) (hirr : ∀ x ∈ S, ∀ y ∈ S, Relation.ReflTransGen (PosStep S K) x y) (hex : ∃ o ∈ S, IsOptimal S σ mx o) {x0 : α} (hx0 : x0 ∈ S) :
    ∀ δ : ℚ, 0 < δ → ∃ n0 : ℕ, ∀ n, n0 ≤ n →
      1 - δ ≤ burstsMean (clockSet S T) (tiltRate (clockSet S T) (clockRate T K) w) n (fun m => σ m.1) mx 1 (isIn (IsOptimal (clockSet S T) (fun m => σ m.1) mx)) (x0, 0) := by
  have hker := clock_isKernel hK hT
  have hmem : (x0, 0) ∈ clockSet S T := clock_mem.2 ⟨hx0, hT⟩
  have hopt : ∀ y ∈ clockSet S T, ∃ z, IsOptimal (clockSet S T) (fun m => σ m.1) mx z ∧
      Relation.ReflTransGen (PosStep (clockSet S T) (tiltRate (clockSet S T) (clockRate T K) w)) y z := by
    intro y hy
    obtain ⟨o, ho, hbest⟩ := hex
    obtain ⟨k', -, hr⟩ := clock_reach hT hw (hirr y.1 (clock_mem.1 hy).1 o ho) (clock_mem.1 hy).2
    exact ⟨(o, k'), (clock_optimal hT).2 hbest, (tilt_reach hker hc).2 hr⟩
  refine (run_find_iff (σ := fun m : α × ℕ => σ m.1) (mx := mx) (tilt_isKernel hker hc) hmem (fun x hx y hxy => ?_)).1 (fun x hx => hopt x (reached_mem hmem hx))
  rcases hxy.cases_head with rfl | ⟨c, hc', -⟩
  · exact ⟨x, hx, .refl⟩
  · exact hopt y (reached_mem hc'.1 hxy)

end kernel

end GC

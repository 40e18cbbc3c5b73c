import Verif.Lemmas.VarBursts
import Verif.Lemmas.Tilted

/-!
# Bursts of `variable_length_short_bursts` that grow

A burst of `variable_length_short_bursts` (optimization/optimization.py:551-567) is a burst of `short_bursts`, which is cut off when the steps are used up.  With
`stuck_buffer ≤ 0` the length doubles after every burst (568-569).
-/

set_option linter.unusedSectionVars false
set_option autoImplicit false

namespace GC

/-! ### One burst -/

section one
variable {S R A : Type} [LinearOrder A] {o : OptCfg S R A} {accept : R → M S Bool} {f : R → A} {Good : R → Prop}

/-- Steps do not raise `StopIteration`, and lead from good states to good states. -/
structure StepsAll (o : OptCfg S R A) (accept : R → M S Bool) (fuel : ℕ) (Good : R → Prop) : Prop where
  stop : ∀ (x0 : R) (steps : ℤ) (x : R) (k : ℕ), Good x → (k : ℤ) < steps → ∀ s ch' s',
    Chain.loop (o.chain accept x0 steps) ⟨o.constraints, some k, x⟩ k fuel s ≠ some (.error .stopIteration, ch', s')
  good : ∀ (x0 : R) (steps : ℤ) (x : R) (k : ℕ), Good x → (k : ℤ) < steps → ∀ s y ch' s',
    Chain.loop (o.chain accept x0 steps) ⟨o.constraints, some k, x⟩ k fuel s = some (.ok y, ch', s') → Good y

/-- the number of steps of a chain matters only for when it ends -/
theorem loop_steps (x0 : R) {n m : ℤ} (ch : Chain S R) {k : ℕ} (hn : (k : ℤ) < n) (hm : (k : ℤ) < m) (fuel : ℕ) (s : S) :
    Chain.loop (o.chain accept x0 n) ch k fuel s = Chain.loop (o.chain accept x0 m) ch k fuel s := by
  induction fuel generalizing s with
  | zero => rfl
  | succ fuel ih =>
    rw [Chain.loop, Chain.loop]
    have h1 : (k : ℤ) < (o.chain accept x0 n).totalSteps := hn
    have h2 : (k : ℤ) < (o.chain accept x0 m).totalSteps := hm
    rw [if_pos h1, if_pos h2]
    show (match o.proposal ch.state s with | (.error e, s1) => _ | (.ok q, s1) => _) = (match o.proposal ch.state s with | (.error e, s1) => _ | (.ok q, s1) => _)
    rcases o.proposal ch.state s with ⟨e | q, s1⟩
    · rfl
    show (match validator q ch.isValid (o.erase ch.state s1) with | (.error e, s3) => _ | (.ok false, s3) => _ | (.ok true, s3) => _) =
      (match validator q ch.isValid (o.erase ch.state s1) with | (.error e, s3) => _ | (.ok false, s3) => _ | (.ok true, s3) => _)
    rcases validator q ch.isValid (o.erase ch.state s1) with ⟨e | (_ | _), s3⟩
    · rfl
    · exact ih s3
    · rfl

/-- the rest of a burst -/
theorem watchVar_watch {fuel : ℕ} (hg : StepsAll o accept (fuel + 1) Good) (x0 : R) {n m : ℕ} (hmn : m ≤ n) {numSteps : ℤ} :
    ∀ (body k : ℕ) (x : R) (b : R × A) (stuck i : ℕ) (s : S), Good x → Good b.1 → 1 ≤ k → k ≤ m → m < body + k → (i : ℤ) < numSteps → ((i + (m - k) : ℕ) : ℤ) ≤ numSteps →
      (m = n ∨ numSteps = (i + (m - k) : ℕ)) →
      (o.watchVar (o.chain accept x0 n) numSteps (fuel + 1) body ⟨o.constraints, some k, x⟩ b stuck i s).1 =
          o.watch (o.chain accept x0 m) (fuel + 1) body ⟨o.constraints, some k, x⟩ b s ∧
        ((o.watch (o.chain accept x0 m) (fuel + 1) body ⟨o.constraints, some k, x⟩ b s).status = some (.ok ()) →
          (o.watchVar (o.chain accept x0 n) numSteps (fuel + 1) body ⟨o.constraints, some k, x⟩ b stuck i s).2.2 = i + (m - k)) := by
  intro body
  induction body with
  | zero => intro k x b stuck i s _ _ h1 h2 h3; omega
  | succ body ih =>
    intro k x b stuck i s hx hb hk hkm hbody hi hle hor
    obtain ⟨k, rfl⟩ : ∃ j, k = j + 1 := ⟨k - 1, by omega⟩
    rcases hkm.eq_or_lt with heq | hlt
    · obtain rfl : m = n := by
        rcases hor with h | h
        · exact h
        · rw [heq] at h; simp at h; omega
      have hn : Chain.next (o.chain accept x0 m) ⟨o.constraints, some (k + 1), x⟩ (fuel + 1) s = some (.error .stopIteration, ⟨o.constraints, some (k + 1), x⟩, s) := by
        show Chain.loop _ _ _ _ _ = _
        rw [Chain.loop, if_neg (by show ¬ _ < (m : ℤ); omega)]
      rw [OptCfg.watchVar, OptCfg.watch, hn]
      exact ⟨rfl, fun _ => by show i = _; omega⟩
    · have hn : Chain.next (o.chain accept x0 n) ⟨o.constraints, some (k + 1), x⟩ (fuel + 1) s = Chain.next (o.chain accept x0 m) ⟨o.constraints, some (k + 1), x⟩ (fuel + 1) s :=
        loop_steps x0 _ (by push_cast; omega) (by push_cast; omega) (fuel + 1) s
      have hn' : Chain.next (o.chain accept x0 m) ⟨o.constraints, some (k + 1), x⟩ (fuel + 1) s =
        Chain.loop (o.chain accept x0 m) ⟨o.constraints, some (k + 1), x⟩ (k + 1) (fuel + 1) s := rfl
      rw [OptCfg.watchVar, OptCfg.watch, hn, hn']
      have hstop := hg.stop x0 m x (k + 1) hx (by push_cast; omega) s
      have hgood := hg.good x0 m x (k + 1) hx (by push_cast; omega) s
      rcases hl : Chain.loop (o.chain accept x0 m) ⟨o.constraints, some (k + 1), x⟩ (k + 1) (fuel + 1) s with _ | ⟨r, ch', s1⟩
      · exact ⟨rfl, fun h => by cases h⟩
      rcases r with e | y
      · have hne : e ≠ .stopIteration := fun he => hstop _ _ (he ▸ hl)
        rcases e <;> first
          | exact absurd rfl hne
          | exact ⟨rfl, fun h => by cases h⟩
      have hy : Good y := hgood _ _ _ hl
      obtain ⟨hv, ⟨_, h1, hcnt, hst, -⟩ | ⟨_, h1, -⟩⟩ := loop_result hl
      swap
      · cases h1
      obtain rfl := Except.ok.inj h1
      have hch : ch' = ⟨o.constraints, some (k + 1 + 1), y⟩ := by
        cases ch'
        simp only at hv hcnt hst
        rw [hv, hcnt, hst]
      subst hch
      simp only
      rcases o.consumer y s1 with ⟨e | u, s2⟩
      · exact ⟨rfl, fun h => by cases h⟩
      simp only
      rcases o.score y s2 with ⟨e | a, s3⟩
      · exact ⟨rfl, fun h => by cases h⟩
      simp only
      have hgu : Good (o.update b y a).1 := by
        unfold OptCfg.update
        split_ifs
        · exact hy
        · exact hb
      by_cases hlast : numSteps ≤ ((i + 1 : ℕ) : ℤ)
      · rw [if_pos hlast]
        have hm : m = k + 1 + 1 := by push_cast at hle; omega
        obtain ⟨body, rfl⟩ : ∃ j, body = j + 1 := ⟨body - 1, by omega⟩
        have hn3 : Chain.next (o.chain accept x0 m) ⟨o.constraints, some (k + 1 + 1), y⟩ (fuel + 1) s3 =
            some (.error .stopIteration, ⟨o.constraints, some (k + 1 + 1), y⟩, s3) := by
          show Chain.loop _ _ _ _ _ = _
          rw [Chain.loop, if_neg (by show ¬ _ < (m : ℤ); rw [hm]; push_cast; omega)]
        rw [OptCfg.watch, hn3]
        exact ⟨rfl, fun _ => by show i + 1 = _; omega⟩
      · rw [if_neg hlast]
        obtain ⟨g1, g2⟩ := ih (k + 1 + 1) y (o.update b y a) (if isImprovement o.maximize a b.2 = true then 0 else stuck + 1) (i + 1) s3 hy hgu (by omega) (by omega)
          (by omega) (by omega) (by push_cast at hle ⊢; omega) (hor.imp id (fun h => by rw [h]; push_cast; omega))
        refine ⟨by simp only [g1], fun h => ?_⟩
        have := g2 h
        simp only
        rw [this]
        omega

/-- a burst of `variable_length_short_bursts` -/
theorem burstVar_burst {fuel : ℕ} (hg : StepsAll o accept (fuel + 1) Good) {n m : ℕ} (hm : 1 ≤ m) (hmn : m ≤ n) {numSteps : ℤ} (body : ℕ) (hbody : m < body) (b : R × A)
    (hb : Good b.1) (stuck i : ℕ) (hi : ((i + m : ℕ) : ℤ) ≤ numSteps) (hor : m = n ∨ numSteps = (i + m : ℕ)) (s : S) :
    ∃ st j : ℕ, o.burstVar accept numSteps n (fuel + 1) body b stuck i s = (o.burst accept (m : ℕ) (fuel + 1) body b s, st, j) ∧
      ((o.burst accept (m : ℕ) (fuel + 1) body b s).status = some (.ok ()) → j = i + m) := by
  obtain ⟨body, rfl⟩ : ∃ j, body = j + 1 := ⟨body - 1, by omega⟩
  refine ⟨(o.burstVar accept numSteps n (fuel + 1) (body + 1) b stuck i s).2.1, (o.burstVar accept numSteps n (fuel + 1) (body + 1) b stuck i s).2.2, ?_⟩
  suffices h : (o.burstVar accept numSteps n (fuel + 1) (body + 1) b stuck i s).1 = o.burst accept (m : ℕ) (fuel + 1) (body + 1) b s ∧
      ((o.burst accept (m : ℕ) (fuel + 1) (body + 1) b s).status = some (.ok ()) → (o.burstVar accept numSteps n (fuel + 1) (body + 1) b stuck i s).2.2 = i + m) by
    exact ⟨by rw [← h.1], h.2⟩
  unfold OptCfg.burstVar OptCfg.burst
  have hsame : Chain.init (o.chain accept b.1 (n : ℕ)) o.constraints s = Chain.init (o.chain accept b.1 (m : ℕ)) o.constraints s := rfl
  rw [hsame]
  rcases hin : Chain.init (o.chain accept b.1 (m : ℕ)) o.constraints s with ⟨e | ch, s1⟩
  · exact ⟨rfl, fun h => by cases h⟩
  have hch : ch = ⟨o.constraints, none, b.1⟩ := by
    unfold Chain.init at hin
    split at hin
    · cases hin
    · simp only [Prod.mk.injEq, Except.ok.injEq] at hin
      exact hin.1.symm
  subst hch
  simp only
  have hn : ∀ l : ℕ, Chain.next (o.chain accept b.1 (l : ℕ)) (Chain.iter (o.chain accept b.1 (l : ℕ)) ⟨o.constraints, none, b.1⟩) (fuel + 1) s1 =
      some (.ok b.1, ⟨o.constraints, some 1, b.1⟩, s1) := fun _ => rfl
  rw [OptCfg.watchVar, OptCfg.watch, hn, hn]
  simp only
  rcases o.consumer b.1 s1 with ⟨e | u, s2⟩
  · exact ⟨rfl, fun h => by cases h⟩
  simp only
  rcases o.score b.1 s2 with ⟨e | a, s3⟩
  · exact ⟨rfl, fun h => by cases h⟩
  simp only
  have hgu : Good (o.update b b.1 a).1 := by
    unfold OptCfg.update
    split_ifs
    · exact hb
    · exact hb
  by_cases hlast : numSteps ≤ ((i + 1 : ℕ) : ℤ)
  · rw [if_pos hlast]
    have hm1 : m = 1 := by push_cast at hi hlast; omega
    obtain ⟨body, rfl⟩ : ∃ j, body = j + 1 := ⟨body - 1, by omega⟩
    have hn3 : Chain.next (o.chain accept b.1 (m : ℕ)) ⟨o.constraints, some 1, b.1⟩ (fuel + 1) s3 = some (.error .stopIteration, ⟨o.constraints, some 1, b.1⟩, s3) := by
      show Chain.loop _ _ _ _ _ = _
      rw [Chain.loop, if_neg (by show ¬ _ < (m : ℤ); rw [hm1]; simp)]
    rw [OptCfg.watch, hn3]
    exact ⟨rfl, fun _ => by show i + 1 = _; omega⟩
  · rw [if_neg hlast]
    obtain ⟨g1, g2⟩ := watchVar_watch hg b.1 hmn (numSteps := numSteps) body 1 b.1 (o.update b b.1 a) (if isImprovement o.maximize a b.2 = true then 0 else stuck + 1) (i + 1) s3
      hb hgu le_rfl hm (by omega) (by omega) (by push_cast at hi ⊢; omega) (hor.imp id (fun h => by rw [h]; push_cast; omega))
    refine ⟨by simp only [g1], fun h => ?_⟩
    have := g2 h
    simp only
    rw [this]
    omega

/-- `time_stuck` does not matter within a burst -/
theorem watchVar_indep (c : ChainCfg S R) (numSteps : ℤ) (fuel : ℕ) : ∀ (body : ℕ) (ch : Chain S R) (b : R × A) (s1 s2 i : ℕ) (s : S),
    (o.watchVar c numSteps fuel body ch b s1 i s).1 = (o.watchVar c numSteps fuel body ch b s2 i s).1 ∧
      (o.watchVar c numSteps fuel body ch b s1 i s).2.2 = (o.watchVar c numSteps fuel body ch b s2 i s).2.2 := by
  intro body
  induction body with
  | zero => intro ch b s1 s2 i s; exact ⟨rfl, rfl⟩
  | succ body ih =>
    intro ch b s1 s2 i s
    rw [OptCfg.watchVar, OptCfg.watchVar]
    rcases Chain.next c ch fuel s with _ | ⟨e | y, ch', t1⟩
    · exact ⟨rfl, rfl⟩
    · cases e <;> exact ⟨rfl, rfl⟩
    simp only
    rcases o.consumer y t1 with ⟨e | u, t2⟩
    · exact ⟨rfl, rfl⟩
    simp only
    rcases o.score y t2 with ⟨e | a, t3⟩
    · exact ⟨rfl, rfl⟩
    simp only
    split_ifs
    · exact ⟨rfl, rfl⟩
    · exact ⟨rfl, rfl⟩
    · exact ⟨rfl, rfl⟩
    · obtain ⟨g1, g2⟩ := ih ch' (o.update b y a) (s1 + 1) (s2 + 1) (i + 1) t3
      exact ⟨by simp only [g1], g2⟩

/-- … and with `stuck_buffer ≤ 0` not at all -/
theorem varBursts_stuck {numSteps stuckBuffer : ℤ} (hsb : stuckBuffer ≤ 0) {fuel body : ℕ} : ∀ (n l : ℕ) (b : R × A) (s1 s2 : ℕ) {i : ℕ} {s : S},
    o.varBursts accept numSteps stuckBuffer fuel body n l b s1 i s = o.varBursts accept numSteps stuckBuffer fuel body n l b s2 i s := by
  have hlen : ∀ l st : ℕ, (if stuckBuffer * (l : ℤ) ≤ (st : ℤ) then l * 2 else l) = l * 2 := by
    intro l st
    rw [if_pos]
    have : stuckBuffer * (l : ℤ) ≤ 0 := mul_nonpos_of_nonpos_of_nonneg hsb (by omega)
    omega
  intro n
  induction n with
  | zero => intro l b s1 s2 i s; rfl
  | succ n ih =>
    intro l b s1 s2 i s
    rw [OptCfg.varBursts, OptCfg.varBursts]
    have hb : (o.burstVar accept numSteps l fuel body b s1 i s).1 = (o.burstVar accept numSteps l fuel body b s2 i s).1 ∧
        (o.burstVar accept numSteps l fuel body b s1 i s).2.2 = (o.burstVar accept numSteps l fuel body b s2 i s).2.2 := by
      unfold OptCfg.burstVar
      rcases Chain.init (o.chain accept b.1 l) o.constraints s with ⟨e | ch, t⟩
      · exact ⟨rfl, rfl⟩
      · exact watchVar_indep _ _ _ _ _ _ _ _ _ _
    simp only [hlen]
    rw [hb.1, hb.2]
    simp only [ih (l * 2) _ (o.burstVar accept numSteps l fuel body b s1 i s).2.1 (o.burstVar accept numSteps l fuel body b s2 i s).2.1]

end one

/-! ### The lengths of the bursts -/

/-- `ns` are the numbers of steps (one less than of states) of the bursts, if the first burst may have `l` states, the allowed number doubles after each one and `rem` states
are left -/
def GrowPlan : List ℕ → ℕ → ℕ → Prop
  | [], _, rem => rem = 0
  | n :: ns, l, rem => 0 < rem ∧ n + 1 = min l rem ∧ GrowPlan ns (l * 2) (rem - (n + 1))

theorem exists_growPlan (rem : ℕ) : ∀ l, 1 ≤ l → ∃ ns, GrowPlan ns l rem ∧ ns.length ≤ rem ∧ ns.sum ≤ rem ∧ ∀ n ∈ ns, n < rem := by
  induction rem using Nat.strong_induction_on with
  | _ rem ih =>
    intro l hl
    rcases rem.eq_zero_or_pos with rfl | h
    · exact ⟨[], rfl, le_rfl, by simp, by simp⟩
    · obtain ⟨n, hn⟩ : ∃ n, n + 1 = min l rem := ⟨min l rem - 1, by omega⟩
      obtain ⟨ns, h1, h2, h3, h4⟩ := ih (rem - (n + 1)) (by omega) (l * 2) (by omega)
      refine ⟨n :: ns, ⟨h, hn, h1⟩, ?_, ?_, fun k hk => ?_⟩
      · rw [List.length_cons]; omega
      · rw [List.sum_cons]; omega
      · rcases List.mem_cons.1 hk with rfl | hk
        · omega
        · have := h4 k hk; omega

/-- with many steps one of the bursts is long -/
theorem growPlan_long {B : ℕ} : ∀ (ns : List ℕ) (l rem : ℕ), l < 2 * B → 3 * B ≤ rem + l → GrowPlan ns l rem → ∃ n ∈ ns, B ≤ n + 1 := by
  intro ns
  induction ns with
  | nil => intro l rem h1 h2 h; have : rem = 0 := h; omega
  | cons n ns ih =>
    rintro l rem h1 h2 ⟨-, h3, h4⟩
    rcases le_or_gt B l with h | h
    · exact ⟨n, List.mem_cons_self, by omega⟩
    · obtain ⟨k, hk, hB⟩ := ih (l * 2) (rem - (n + 1)) (by omega) (by omega) h4
      exact ⟨k, List.mem_cons_of_mem _ hk, hB⟩

/-! ### Mean values -/

section means
variable {α A : Type} [LinearOrder A] {S : Finset α} {K : α → α → ℚ} {σ : α → A} {mx : Bool}

/-- the mean of a function of the best state after bursts of different lengths -/
def lensMean (S : Finset α) (K : α → α → ℚ) (σ : α → A) (mx : Bool) : List ℕ → (α → ℚ) → α → ℚ
  | [], ψ, x => ψ x
  | n :: ns, ψ, x => pathMean S K n (fun l => lensMean S K σ mx ns ψ (lastBest σ mx x l)) x

variable [DecidableEq α]

theorem lensMean_dominated {K' : α → α → ℚ} {c : ℚ} (hc : 0 ≤ c) (h0 : ∀ x ∈ S, ∀ y ∈ S, 0 ≤ K' x y) (hle : ∀ x ∈ S, ∀ y ∈ S, K' x y ≤ K x y)
    (hge : ∀ x ∈ S, ∀ y ∈ S, c * K x y ≤ K' x y) {ψ : α → ℚ} (hψ : ∀ x ∈ S, 0 ≤ ψ x) (ns : List ℕ) : ∀ x ∈ S,
    0 ≤ lensMean S K' σ mx ns ψ x ∧ c ^ ns.sum * lensMean S K σ mx ns ψ x ≤ lensMean S K' σ mx ns ψ x := by
  have hK0 : ∀ x ∈ S, ∀ y ∈ S, 0 ≤ K x y := fun x hx y hy => (h0 x hx y hy).trans (hle x hx y hy)
  induction ns with
  | nil =>
    intro x hx
    refine ⟨hψ x hx, ?_⟩
    rw [List.sum_nil, pow_zero, one_mul]
    exact le_rfl
  | cons n ns ih =>
    intro x hx
    show 0 ≤ pathMean S K' n (fun l => lensMean S K' σ mx ns ψ (lastBest σ mx x l)) x ∧
      c ^ (n :: ns).sum * pathMean S K n (fun l => lensMean S K σ mx ns ψ (lastBest σ mx x l)) x ≤ pathMean S K' n (fun l => lensMean S K' σ mx ns ψ (lastBest σ mx x l)) x
    let F' : List α → ℚ := fun l => if ∀ y ∈ l, y ∈ S then lensMean S K' σ mx ns ψ (lastBest σ mx x l) else 0
    let F : List α → ℚ := fun l => if ∀ y ∈ l, y ∈ S then lensMean S K σ mx ns ψ (lastBest σ mx x l) else 0
    have e1 : pathMean S K' n (fun l => lensMean S K' σ mx ns ψ (lastBest σ mx x l)) x = pathMean S K' n F' x :=
      pathMean_congr_mem n (fun l _ hl => (if_pos hl).symm) x
    have e2 : pathMean S K n (fun l => lensMean S K σ mx ns ψ (lastBest σ mx x l)) x = pathMean S K n F x :=
      pathMean_congr_mem n (fun l _ hl => (if_pos hl).symm) x
    rw [e1, e2]
    have hF' : ∀ l, 0 ≤ F' l := by
      intro l
      show 0 ≤ (if ∀ y ∈ l, y ∈ S then lensMean S K' σ mx ns ψ (lastBest σ mx x l) else 0)
      split_ifs with h
      · exact (ih _ (lastBest_mem (σ := σ) (mx := mx) hx h)).1
      · exact le_rfl
    obtain ⟨d1, d2, d3⟩ := pathMean_dominated hc h0 hle hge n hF' x hx
    refine ⟨d1, ?_⟩
    have := pathMean_nonneg (K := K) hK0 (f := fun l => 1 * F' l + (-(c ^ ns.sum)) * F l) n (fun l _ hl => by
      have h1 : F' l = lensMean S K' σ mx ns ψ (lastBest σ mx x l) := if_pos hl
      have h2 : F l = lensMean S K σ mx ns ψ (lastBest σ mx x l) := if_pos hl
      rw [h1, h2]
      have := (ih _ (lastBest_mem (σ := σ) (mx := mx) hx hl)).2
      linarith) x hx
    rw [pathMean_lin] at this
    rw [List.sum_cons, pow_add, mul_assoc]
    refine (mul_le_mul_of_nonneg_left ?_ (pow_nonneg hc n)).trans d3
    linarith

/-- what is found is kept -/
theorem lensMean_keeps (hK : IsKernel S K) (ns : List ℕ) : ∀ x ∈ S, isIn (IsOptimal S σ mx) x ≤ lensMean S K σ mx ns (isIn (IsOptimal S σ mx)) x := by
  induction ns with
  | nil => intro x _; exact le_rfl
  | cons n ns ih =>
    intro x hx
    show _ ≤ pathMean S K n (fun l => lensMean S K σ mx ns (isIn (IsOptimal S σ mx)) (lastBest σ mx x l)) x
    refine le_trans (pathMean_const hK (isIn (IsOptimal S σ mx) x) n x hx).ge (pathMean_mono hK n (fun l _ hl => ?_) x hx)
    refine le_trans ?_ (ih _ (lastBest_mem (σ := σ) (mx := mx) hx hl))
    unfold isIn
    split_ifs with h1 h2
    · exact le_rfl
    · exact absurd (show IsOptimal S σ mx (lastBest σ mx x l) from fun z hz =>
        improve_trans ((lastBest_spec (σ := σ) (mx := mx) x l).2 x List.mem_cons_self) (h1 z hz)) h2
    · norm_num
    · exact le_rfl

/-- one long burst is enough -/
theorem lensMean_found (hK : IsKernel S K) {n0 : ℕ} {δ : ℚ} (h : ∀ x ∈ S, ∀ n, n0 ≤ n → 1 - δ ≤ burstsMean S K n σ mx 1 (isIn (IsOptimal S σ mx)) x) (ns : List ℕ)
    (hns : ∃ n ∈ ns, n0 ≤ n) : ∀ x ∈ S, 1 - δ ≤ lensMean S K σ mx ns (isIn (IsOptimal S σ mx)) x := by
  induction ns with
  | nil => simp at hns
  | cons n ns ih =>
    intro x hx
    show _ ≤ pathMean S K n (fun l => lensMean S K σ mx ns (isIn (IsOptimal S σ mx)) (lastBest σ mx x l)) x
    by_cases hn : n0 ≤ n
    · exact (h x hx n hn).trans (pathMean_mono hK n (fun l _ hl => lensMean_keeps hK ns _ (lastBest_mem (σ := σ) (mx := mx) hx hl)) x hx)
    · have hns' : ∃ n ∈ ns, n0 ≤ n := by
        obtain ⟨k, hk, hk'⟩ := hns
        rcases List.mem_cons.1 hk with rfl | hk
        · exact absurd hk' hn
        · exact ⟨k, hk, hk'⟩
      exact le_trans (pathMean_const hK (1 - δ) n x hx).ge (pathMean_mono hK n (fun l _ hl => ih hns' _ (lastBest_mem (σ := σ) (mx := mx) hx hl)) x hx)

end means

/-! ### The law of the run -/

section law
variable {R α A : Type} [LinearOrder A] [DecidableEq α] {N d : ℕ} {o : OptCfg Tape R A} {accept : R → M Tape Bool} {Good : R → Prop} {φ : R → α} {S : Finset α}
  {B : α → α → ℚ} {ρ : α → ℚ} {σ : α → A}

/-- the bursts of `variable_length_short_bursts` with `stuck_buffer ≤ 0` -/
theorem OptLaw.growing (h : OptLaw N d o accept Good φ S B ρ σ) (hN : 0 < N) (fuel : ℕ) (hg : StepsAll o accept (fuel + 1) Good) {numSteps stuckBuffer : ℤ}
    (hsb : stuckBuffer ≤ 0) {Φ : R × A → Tape → ℚ} {ψ : α → ℚ} (j : ℕ)
    (hΦ : ∀ b : R × A, Good b.1 → b.2 = σ (φ b.1) → ∀ L, j ≤ L → avg N L (Φ b) = ψ (φ b.1)) (body : ℕ) : ∀ (ns : List ℕ) (l rem bursts : ℕ), GrowPlan ns l rem →
      ns.length < bursts → (∀ n ∈ ns, n + 1 < body) → ∀ (best : R × A) (stuck i : ℕ), Good best.1 → best.2 = σ (φ best.1) → numSteps = (i + rem : ℕ) →
      ∀ L, ns.sum * ((fuel + 1) * d) + j ≤ L →
        avg N L (fun t => runThen Φ (o.varBursts accept numSteps stuckBuffer (fuel + 1) body bursts l best stuck i t)) =
          lensMean S (triedKernel B ρ (fuel + 1)) σ o.maximize ns ψ (φ best.1) := by
  intro ns
  induction ns with
  | nil =>
    intro l rem bursts hp hb _ best stuck i hbg hbs hi L hL
    obtain ⟨bursts, rfl⟩ : ∃ k, bursts = k + 1 := ⟨bursts - 1, by simp at hb; omega⟩
    have hrem : rem = 0 := hp
    have : ∀ t, runThen Φ (o.varBursts accept numSteps stuckBuffer (fuel + 1) body (bursts + 1) l best stuck i t) = Φ best t := by
      intro t
      rw [OptCfg.varBursts, if_neg (by rw [hi, hrem]; simp)]
      rfl
    rw [avg_congr N L this, hΦ best hbg hbs L (by simp at hL; omega)]
    rfl
  | cons n ns ih =>
    rintro l rem bursts ⟨hp0, hp1, hp2⟩ hb hbody best stuck i hbg hbs hi L hL
    obtain ⟨bursts, rfl⟩ : ∃ k, bursts = k + 1 := ⟨bursts - 1, by simp at hb; omega⟩
    have hsum : n * ((fuel + 1) * d) + (ns.sum * ((fuel + 1) * d) + j) ≤ L := by
      rw [List.sum_cons, Nat.add_mul] at hL
      omega
    have key := h.burst hN (fuel + 1) (by omega)
      (Φ := fun b t => runThen Φ (o.varBursts accept numSteps stuckBuffer (fuel + 1) body bursts (l * 2) b 0 (i + (n + 1)) t))
      (ψ := lensMean S (triedKernel B ρ (fuel + 1)) σ o.maximize ns ψ) (ns.sum * ((fuel + 1) * d) + j)
      (fun b hb' hbs' L' hL' => ih (l * 2) (rem - (n + 1)) bursts hp2 (by simp at hb; omega) (fun k hk => hbody k (List.mem_cons_of_mem _ hk)) b 0 (i + (n + 1)) hb' hbs'
        (by rw [hi]; push_cast; omega) L' hL') n body best hbg hbs (hbody n List.mem_cons_self) L hsum
    refine Eq.trans (avg_congr N L (fun t => ?_)) key
    have hmin : n + 1 = l ∨ numSteps = ((i + (n + 1) : ℕ) : ℤ) := by
      rcases le_total l rem with hl | hl
      · exact .inl (by omega)
      · exact .inr (by rw [hi]; push_cast; omega)
    obtain ⟨st, k, he, hok⟩ := burstVar_burst hg (n := l) (m := n + 1) (by omega) (by omega) (numSteps := numSteps) body (hbody n List.mem_cons_self) best hbg stuck i
      (by rw [hi]; push_cast; omega) hmin t
    rw [OptCfg.varBursts, if_pos (by rw [hi]; push_cast; omega), he]
    have hlen : (if stuckBuffer * (l : ℤ) ≤ (st : ℤ) then l * 2 else l) = l * 2 := by
      rw [if_pos]
      have : stuckBuffer * (l : ℤ) ≤ 0 := mul_nonpos_of_nonpos_of_nonneg hsb (by omega)
      omega
    simp only
    rw [hlen]
    generalize o.burst accept ((n + 1 : ℕ) : ℤ) (fuel + 1) body best t = r at hok
    rcases r with ⟨stt, y, tr, be, w⟩
    rcases stt with _ | e | _
    · rfl
    · rfl
    · rw [hok rfl]
      show runThen Φ (o.varBursts accept numSteps stuckBuffer (fuel + 1) body bursts (l * 2) be st (i + (n + 1)) w) = _
      rw [varBursts_stuck hsb bursts (l * 2) be st 0]
      rfl

end law

end GC

import Verif.Lemmas.Bursts

/-!
# The law of `short_bursts`

`short_bursts` (optimization/optimization.py:376-425) starts one `MarkovChain` after the other, each at the best partition found so far.  Here the mean of a function
of the best partition after the last burst is computed from the law of one round of the loop of `MarkovChain.__next__`.
-/

set_option linter.unusedSectionVars false
set_option autoImplicit false

namespace GC

variable {R α A : Type} [LinearOrder A]

/-- the value of a run: a function of `(best_part, best_score)` and the world if it ended without an exception, otherwise 0 -/
def runThen (Φ : R × A → Tape → ℚ) (r : OptRun Tape R A) : ℚ :=
  match r.status with
  | some (.ok ()) => Φ r.best r.world
  | _ => 0

/-- the value of what `short_bursts` does: 1 if it ends without an exception and `(best_part, best_score)` satisfies `T` then, otherwise 0 -/
def endsWith (T : R × A → Prop) [DecidablePred T] : Except (PyErr × Tape) (A × OptRun Tape R A) → ℚ
  | .ok (_, r) => runThen (fun b _ => if T b then 1 else 0) r
  | .error _ => 0

/-- What has to be known about an optimizer: the law of the rounds of its chains; the score is a function of the projection of the state; computing it and consuming a
state draw no random numbers; the states satisfy the constraints. -/
structure OptLaw [DecidableEq α] (N d : ℕ) (o : OptCfg Tape R A) (accept : R → M Tape Bool) (Good : R → Prop) (φ : R → α) (S : Finset α)
    (B : α → α → ℚ) (ρ : α → ℚ) (σ : α → A) : Prop where
  tries : ∀ (x : R) (steps : ℤ), TryLaw N d (o.chain accept x steps) o.constraints Good φ S B ρ
  score : ∀ x, Good x → ∀ t, o.score x t = (.ok (σ (φ x)), t)
  consumer : ∀ x, Good x → ∀ t, o.consumer x t = (.ok (), t)
  valid : ∀ x, Good x → ∀ t, validator x o.constraints t = (.ok true, t)

/-- what the loop over a chain does with a state it has got -/
def OptCfg.watchOn (o : OptCfg Tape R A) (c : ChainCfg Tape R) (fuel body : ℕ) (best : R × A) (part : R) (ch' : Chain Tape R) (s1 : Tape) : OptRun Tape R A :=
  match o.consumer part s1 with
  | (.error e, s2) => ⟨some (.error e), [part], [], best, s2⟩
  | (.ok (), s2) =>
    match o.score part s2 with
    | (.error e, s3) => ⟨some (.error (genErr e)), [part], [], best, s3⟩
    | (.ok a, s3) =>
      let best' := o.update best part a
      let r := OptCfg.watch o c fuel body ch' best' s3
      { r with yielded := part :: r.yielded, trace := ⟨part, a, best'⟩ :: r.trace }

section law
variable [DecidableEq α] {N d : ℕ} {o : OptCfg Tape R A} {accept : R → M Tape Bool} {Good : R → Prop} {φ : R → α} {S : Finset α} {B : α → α → ℚ} {ρ : α → ℚ} {σ : α → A}

theorem runThen_watchOn (h : OptLaw N d o accept Good φ S B ρ σ) (c : ChainCfg Tape R) (f body : ℕ) (best : R × A) {x : R} (hx : Good x) (ch : Chain Tape R) (t : Tape)
    (Φ : R × A → Tape → ℚ) : runThen Φ (o.watchOn c f body best x ch t) = runThen Φ (o.watch c f body ch (o.update best x (σ (φ x))) t) := by
  unfold OptCfg.watchOn
  rw [h.consumer x hx t]
  dsimp only
  rw [h.score x hx t]
  rfl

theorem update_best (o : OptCfg Tape R A) (σ : α → A) {b : R × A} (hb : b.2 = σ (φ b.1)) (y : R) :
    (o.update b y (σ (φ y))).2 = σ (φ (o.update b y (σ (φ y))).1) ∧
      φ (o.update b y (σ (φ y))).1 = (if isImprovement o.maximize (σ (φ y)) (σ (φ b.1)) then φ y else φ b.1) := by
  unfold OptCfg.update
  rw [hb]
  split_ifs with h
  · exact ⟨rfl, rfl⟩
  · exact ⟨hb, rfl⟩

theorem update_good (o : OptCfg Tape R A) {b : R × A} (hb : Good b.1) {y : R} (hy : Good y) (a : A) : Good (o.update b y a).1 := by
  unfold OptCfg.update
  split_ifs
  · exact hy
  · exact hb

/-- the rest of a burst -/
theorem OptLaw.watch (h : OptLaw N d o accept Good φ S B ρ σ) (hN : 0 < N) (f : ℕ) (hf : 0 < f) (x0 : R) (steps : ℤ) {Φ : R × A → Tape → ℚ} {ψ : α → ℚ} (j : ℕ)
    (hΦ : ∀ b : R × A, Good b.1 → b.2 = σ (φ b.1) → ∀ L, j ≤ L → avg N L (Φ b) = ψ (φ b.1)) : ∀ (n k body : ℕ) (x : R) (best : R × A), Good x → Good best.1 →
      best.2 = σ (φ best.1) → steps = (k + 1 + n : ℕ) → n < body → ∀ L, n * (f * d) + j ≤ L →
      avg N L (fun t => runThen Φ (o.watch (o.chain accept x0 steps) f body ⟨o.constraints, some (k + 1), x⟩ best t)) =
        pathMean S (triedKernel B ρ f) n (fun l => ψ (lastBest σ o.maximize (φ best.1) l)) (φ x) := by
  have hT := h.tries x0 steps
  have htot : (o.chain accept x0 steps).totalSteps = steps := rfl
  intro n
  induction n with
  | zero =>
    intro k body x best _ hb hbs hk hbody L hL
    obtain ⟨body, rfl⟩ : ∃ b, body = b + 1 := ⟨body - 1, by omega⟩
    obtain ⟨f, rfl⟩ : ∃ b, f = b + 1 := ⟨f - 1, by omega⟩
    have : ∀ t, runThen Φ (o.watch (o.chain accept x0 steps) (f + 1) (body + 1) ⟨o.constraints, some (k + 1), x⟩ best t) = Φ best t := by
      intro t
      rw [OptCfg.watch]
      simp only [Chain.next]
      rw [Chain.loop, if_neg (by rw [htot, hk]; push_cast; omega)]
      rfl
    rw [avg_congr N L this, hΦ best hb hbs L (by omega)]
    rfl
  | succ n ih =>
    intro k body x best hx hb hbs hk hbody L hL
    obtain ⟨body, rfl⟩ : ∃ b, body = b + 1 := ⟨body - 1, by omega⟩
    have hlt : ((k + 1 : ℕ) : ℤ) < (o.chain accept x0 steps).totalSteps := by rw [htot, hk]; push_cast; omega
    have hpoint : ∀ t, runThen Φ (o.watch (o.chain accept x0 steps) f (body + 1) ⟨o.constraints, some (k + 1), x⟩ best t) =
        loopThen (fun y ch t => runThen Φ (o.watchOn (o.chain accept x0 steps) f body best y ch t))
          (Chain.loop (o.chain accept x0 steps) ⟨o.constraints, some (k + 1), x⟩ (k + 1) f t) := by
      intro t
      rw [OptCfg.watch]
      simp only [Chain.next]
      rcases hl : Chain.loop (o.chain accept x0 steps) ⟨o.constraints, some (k + 1), x⟩ (k + 1) f t with _ | ⟨r, ch', t'⟩
      · rfl
      · cases r with
        | error e =>
          cases e <;> first | exact absurd hl (hT.no_stop hx (k + 1) hlt (some (k + 1)) f t ch' t') | rfl
        | ok y =>
          unfold OptCfg.watchOn
          dsimp only [loopThen]
          rcases o.consumer y t' with ⟨_ | ⟨⟨⟩⟩, s2⟩
          · rfl
          · dsimp only
            rcases o.score y s2 with ⟨_ | _, s3⟩ <;> rfl
    have hnd : n * (f * d) + f * d + j ≤ L := by rw [← Nat.succ_mul]; exact hL
    rw [avg_congr N L hpoint]
    refine hT.loop hN hx (k + 1) hlt (ψ := fun y => pathMean S (triedKernel B ρ f) n (fun l => ψ (lastBest σ o.maximize (φ best.1) (y :: l))) y) (n * (f * d) + j)
      (fun y hy L' hL' => ?_) (some (k + 1)) f L (by omega)
    rw [avg_congr N L' (fun t => runThen_watchOn h _ f body best hy ⟨o.constraints, some (k + 1 + 1), y⟩ t Φ)]
    obtain ⟨u1, u2⟩ := update_best (φ := φ) o σ hbs y
    rw [ih (k + 1) body y _ hy (update_good o hb hy _) u1 (by rw [hk]; push_cast; ring) (by omega) L' hL', u2]
    rfl

/-- one burst -/
theorem OptLaw.burst (h : OptLaw N d o accept Good φ S B ρ σ) (hN : 0 < N) (f : ℕ) (hf : 0 < f) {Φ : R × A → Tape → ℚ} {ψ : α → ℚ} (j : ℕ)
    (hΦ : ∀ b : R × A, Good b.1 → b.2 = σ (φ b.1) → ∀ L, j ≤ L → avg N L (Φ b) = ψ (φ b.1)) (n body : ℕ) (best : R × A) (hb : Good best.1)
    (hbs : best.2 = σ (φ best.1)) (hbody : n + 1 < body) (L : ℕ) (hL : n * (f * d) + j ≤ L) :
    avg N L (fun t => runThen Φ (o.burst accept (n + 1 : ℕ) f body best t)) =
      pathMean S (triedKernel B ρ f) n (fun l => ψ (lastBest σ o.maximize (φ best.1) l)) (φ best.1) := by
  obtain ⟨body, rfl⟩ : ∃ b, body = b + 1 := ⟨body - 1, by omega⟩
  rw [← h.watch hN f hf best.1 ((n + 1 : ℕ) : ℤ) j hΦ n 0 body best.1 best hb hb hbs (by push_cast; ring) (by omega) L hL]
  refine avg_congr N L (fun t => ?_)
  have hinit : Chain.init (o.chain accept best.1 ((n + 1 : ℕ) : ℤ)) o.constraints t = (.ok ⟨o.constraints, none, best.1⟩, t) := by
    unfold Chain.init checkInitial
    have e : (o.chain accept best.1 ((n + 1 : ℕ) : ℤ)).initial = best.1 := rfl
    rw [e, h.valid best.1 hb t]
  unfold OptCfg.burst
  rw [hinit]
  show runThen Φ (o.watch (o.chain accept best.1 ((n + 1 : ℕ) : ℤ)) f (body + 1) ⟨o.constraints, some 0, best.1⟩ best t) = _
  have hw : o.watch (o.chain accept best.1 ((n + 1 : ℕ) : ℤ)) f (body + 1) ⟨o.constraints, some 0, best.1⟩ best t =
      o.watchOn (o.chain accept best.1 ((n + 1 : ℕ) : ℤ)) f body best best.1 ⟨o.constraints, some 1, best.1⟩ t := by
    rw [OptCfg.watch]
    unfold OptCfg.watchOn
    dsimp only [Chain.next]
    rcases o.consumer best.1 t with ⟨_ | ⟨⟨⟩⟩, s2⟩
    · rfl
    · dsimp only
      rcases o.score best.1 s2 with ⟨_ | _, s3⟩ <;> rfl
  rw [hw, runThen_watchOn h _ f body best hb]
  have : o.update best best.1 (σ (φ best.1)) = best := by
    unfold OptCfg.update
    rw [hbs, improve_refl, if_pos rfl, ← hbs]
  rw [this]

theorem runThen_append {Φ : R × A → Tape → ℚ} (r r' : OptRun Tape R A) : runThen Φ (r.append r') = runThen Φ r' := rfl

/-- one burst after the other -/
theorem OptLaw.bursts (h : OptLaw N d o accept Good φ S B ρ σ) (hN : 0 < N) (f : ℕ) (hf : 0 < f) {Φ : R × A → Tape → ℚ} {ψ : α → ℚ} (j : ℕ)
    (hΦ : ∀ b : R × A, Good b.1 → b.2 = σ (φ b.1) → ∀ L, j ≤ L → avg N L (Φ b) = ψ (φ b.1)) (n body : ℕ) (hbody : n + 1 < body) : ∀ (num : ℕ) (best : R × A),
    Good best.1 → best.2 = σ (φ best.1) → ∀ L, num * (n * (f * d)) + j ≤ L →
      avg N L (fun t => runThen Φ (o.bursts accept (n + 1 : ℕ) f body num best t)) = burstsMean S (triedKernel B ρ f) n σ o.maximize num ψ (φ best.1) := by
  intro num
  induction num with
  | zero => intro best hb hbs L hL; exact hΦ best hb hbs L (by omega)
  | succ num ih =>
    intro best hb hbs L hL
    have hL' : n * (f * d) + (num * (n * (f * d)) + j) ≤ L := by rw [Nat.succ_mul] at hL; omega
    have := h.burst hN f hf (Φ := fun b t => runThen Φ (o.bursts accept (n + 1 : ℕ) f body num b t))
      (ψ := burstsMean S (triedKernel B ρ f) n σ o.maximize num ψ) (num * (n * (f * d)) + j) (fun b hb hbs L hL => ih b hb hbs L hL) n body best hb hbs hbody L hL'
    refine Eq.trans (avg_congr N L (fun t => ?_)) this
    rw [OptCfg.bursts]
    show runThen Φ (match (o.burst accept (n + 1 : ℕ) f body best t).status with
      | some (.ok ()) => (o.burst accept (n + 1 : ℕ) f body best t).append (o.bursts accept (n + 1 : ℕ) f body num (o.burst accept (n + 1 : ℕ) f body best t).best
          (o.burst accept (n + 1 : ℕ) f body best t).world)
      | _ => o.burst accept (n + 1 : ℕ) f body best t) = runThen _ (o.burst accept (n + 1 : ℕ) f body best t)
    generalize o.burst accept (n + 1 : ℕ) f body best t = r
    rcases r with ⟨st, y, tr, be, w⟩
    rcases st with _ | e | _ <;> rfl

/-- the best state after `short_bursts` -/
theorem OptLaw.short_bursts (h : OptLaw N d o accept Good φ S B ρ σ) (hN : 0 < N) (f : ℕ) (hf : 0 < f) (hinit : Good o.initial) (T : R × A → Prop) [DecidablePred T]
    (T' : α → Prop) [DecidablePred T'] (hT : ∀ b : R × A, Good b.1 → b.2 = σ (φ b.1) → (T b ↔ T' (φ b.1))) (n num body : ℕ) (hbody : n + 1 < body) (L : ℕ)
    (hL : num * (n * (f * d)) ≤ L) :
    avg N L (fun t => endsWith T (o.shortBursts accept (n + 1 : ℕ) num f body t)) =
      burstsMean S (triedKernel B ρ f) n σ o.maximize num (isIn T') (φ o.initial) := by
  rw [← h.bursts hN f hf (Φ := fun b _ => if T b then 1 else 0) (ψ := isIn T') 0 (fun b hb hbs L _ => ?_) n body hbody num (o.initial, σ (φ o.initial)) hinit rfl L hL]
  · refine avg_congr N L (fun t => ?_)
    unfold OptCfg.shortBursts
    rw [h.score o.initial hinit t]
    rfl
  · rw [avg_const hN]
    unfold isIn
    by_cases hTb : T b
    · rw [if_pos hTb, if_pos ((hT b hb hbs).1 hTb)]
    · rw [if_neg hTb, if_neg (fun e => hTb ((hT b hb hbs).2 e))]

end law

/-! ### Short paths -/

section paths
variable {S : Finset α} {Rel : α → α → Prop}

/-- `y` can be reached from `x` in at most `k` steps -/
def StepsTo (Rel : α → α → Prop) : ℕ → α → α → Prop
  | 0, x, y => x = y
  | k + 1, x, y => x = y ∨ ∃ z, Rel x z ∧ StepsTo Rel k z y

theorem StepsTo.path {k : ℕ} {x y : α} (h : StepsTo Rel k x y) : ∃ l, List.IsChain Rel (x :: l) ∧ l.length ≤ k ∧ y ∈ x :: l := by
  induction k generalizing x with
  | zero => exact ⟨[], .singleton x, le_rfl, by rw [show x = y from h]; exact List.mem_cons_self⟩
  | succ k ih =>
    rcases h with rfl | ⟨z, hz, h⟩
    · exact ⟨[], .singleton x, by simp, List.mem_cons_self⟩
    · obtain ⟨l, h1, h2, h3⟩ := ih h
      exact ⟨z :: l, .cons_cons hz h1, by simp [h2], List.mem_cons_of_mem _ h3⟩

theorem StepsTo.mono {k : ℕ} {x y : α} (h : StepsTo Rel k x y) : StepsTo Rel (k + 1) x y := by
  induction k generalizing x with
  | zero => exact .inl h
  | succ k ih =>
    rcases h with rfl | ⟨z, hz, h⟩
    · exact .inl rfl
    · exact .inr ⟨z, hz, ih h⟩

/-- what can be reached at all can be reached in fewer steps than there are states -/
theorem stepsTo_card (hS : ∀ x ∈ S, ∀ z, Rel x z → z ∈ S) {y : α} (hy : y ∈ S) {x : α} (hx : x ∈ S) (h : Relation.ReflTransGen Rel x y) {n : ℕ} (hn : S.card ≤ n + 1) :
    StepsTo Rel n x y := by
  classical
  have hgrow : ∀ k, k + 1 ≤ (S.filter (fun x => StepsTo Rel k x y)).card ∨ ∀ x ∈ S, Relation.ReflTransGen Rel x y → StepsTo Rel k x y := by
    intro k
    induction k with
    | zero => exact .inl (Finset.card_pos.2 ⟨y, Finset.mem_filter.2 ⟨hy, rfl⟩⟩)
    | succ k ih =>
      rcases ih with ih | ih
      · by_cases hlt : (S.filter (fun x => StepsTo Rel k x y)).card < (S.filter (fun x => StepsTo Rel (k + 1) x y)).card
        · exact .inl (by omega)
        · right
          have heq : S.filter (fun x => StepsTo Rel k x y) = S.filter (fun x => StepsTo Rel (k + 1) x y) :=
            Finset.eq_of_subset_of_card_le (fun x hx => Finset.mem_filter.2 ⟨(Finset.mem_filter.1 hx).1, (Finset.mem_filter.1 hx).2.mono⟩) (not_lt.1 hlt)
          intro x hx h
          refine StepsTo.mono ?_
          induction h using Relation.ReflTransGen.head_induction_on with
          | refl =>
            have : ∀ k, StepsTo Rel k y y := fun k => by cases k; exacts [rfl, .inl rfl]
            exact this k
          | @head a c hac _ ih' =>
            have := ih' (hS a hx c hac)
            have hm : a ∈ S.filter (fun x => StepsTo Rel (k + 1) x y) := Finset.mem_filter.2 ⟨hx, .inr ⟨c, hac, this⟩⟩
            rw [← heq] at hm
            exact (Finset.mem_filter.1 hm).2
      · exact .inr (fun x hx h => (ih x hx h).mono)
  rcases hgrow n with hc | hc
  · have : S.filter (fun x => StepsTo Rel n x y) = S := Finset.eq_of_subset_of_card_le (Finset.filter_subset _ _) (by omega)
    rw [← this] at hx
    exact (Finset.mem_filter.1 hx).2
  · exact hc x hx h

end paths

end GC

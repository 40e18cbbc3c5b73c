import Verif.Props.DetailedBalance
import Verif.Props.Recursive
import Verif.Props.Retry
import Mathlib.Algebra.Order.Field.GeomSum
import Mathlib.Algebra.Field.GeomSum

/-!
# The law of `bipartition_tree` for a given law of the spanning trees

The loop keeps a tree for `node_repeats` attempts and then draws another.  The set of balanced edges of a tree does not depend on the root, so the
attempts after the first are wasted: `max_attempts` attempts look at `max_attempts / node_repeats` trees, rounded up.
-/

set_option linter.unusedSectionVars false
set_option autoImplicit false

namespace GC

variable {V P : Type} [LinearOrder V] [LinearOrder P]

/-- the tree with these edges, as `uniformSpan` returns it -/
def treeOn (U : Finset V) (E : Finset (V × V)) : WTree V := ⟨⟨U, E⟩, fun _ _ => none⟩

/-- the number of trees that are looked at in `n` attempts, `r` with each -/
def treesTried (r n : ℕ) : ℕ := (n + r - 1) / r

theorem treesTried_zero {r : ℕ} (hr : 0 < r) : treesTried r 0 = 0 := by
  unfold treesTried
  exact Nat.div_eq_of_lt (by omega)

theorem treesTried_succ {r : ℕ} (hr : 0 < r) (n : ℕ) : treesTried r (n + 1) = treesTried r (n + 1 - r) + 1 := by
  unfold treesTried
  have e : n + 1 + r - 1 = n + r := by omega
  rw [e, Nat.add_div_right _ hr]
  by_cases h : r ≤ n + 1
  · have e' : n + 1 - r + r - 1 = n := by omega
    rw [e']
  · have e' : n + 1 - r + r - 1 = r - 1 := by omega
    rw [e', Nat.div_eq_of_lt (by omega), Nat.div_eq_of_lt (by omega)]

/-- one attempt with a given tree -/
def attemptOn (cfg : BipConfig V Tape) (cutChoice : PopGraph V → List (Cut V) → M Tape (Cut V)) (G : Graph V) (pop : V → ℚ) (target eps : ℚ) (f k a : ℕ)
    (t : WTree V) : M Tape (Finset V) := do
  let cuts ← cfg.balanceFn (PopGraph.init G.nodes t.graph t.weight pop target eps)
  if cuts ≠ [] then do
    let c ← cutChoice (PopGraph.init G.nodes t.graph t.weight pop target eps) cuts
    pure c.subset
  else bipLoop cfg cutChoice false G pop target eps f t (k + 1) (a + 1)

section loop
variable {cfg : BipConfig V Tape} {cutChoice : PopGraph V → List (Cut V) → M Tape (Cut V)} {G : Graph V} {pop : V → ℚ} {target eps : ℚ}

theorem bipLoop_same {m f k a : ℕ} (hm : cfg.maxAttempts = some m) (ha : a < m) (hk : k ≠ cfg.nodeRepeats) (t : WTree V) :
    bipLoop cfg cutChoice false G pop target eps (f + 1) t k a = attemptOn cfg cutChoice G pop target eps f k a t := by
  conv_lhs => unfold bipLoop
  rw [if_pos (by rw [hm]; simpa [attemptsLeft] using ha)]
  unfold bipStep attemptOn
  rw [if_neg hk]
  simp only [M.bind_assoc']
  rfl

theorem bipLoop_fresh {m f a : ℕ} (hm : cfg.maxAttempts = some m) (ha : a < m) (t : WTree V) :
    bipLoop cfg cutChoice false G pop target eps (f + 1) t cfg.nodeRepeats a =
      cfg.spanFn G >>= fun t => attemptOn cfg cutChoice G pop target eps f 0 a t := by
  conv_lhs => unfold bipLoop
  rw [if_pos (by rw [hm]; simpa [attemptsLeft] using ha)]
  unfold bipStep attemptOn
  rw [if_pos rfl]
  simp only [M.bind_assoc']
  rfl

theorem bipLoop_over {m f k a : ℕ} (hm : cfg.maxAttempts = some m) (ha : m ≤ a) (t : WTree V) :
    bipLoop cfg cutChoice false G pop target eps (f + 1) t k a = M.raise .runtimeError := by
  conv_lhs => unfold bipLoop
  rw [if_neg (by rw [hm]; simpa [attemptsLeft] using ha)]
  rfl

/-! ### Random trees -/

/-- the program returned a tree with these edges -/
def hasEdges (E : Finset (V × V)) : Py (WTree V) → Bool
  | .ok t => decide (t.graph.edges = E)
  | .error _ => false

/-- A program that returns a tree of `T` on the nodes `U`, with the probabilities `μ` -/
structure SpanLaw (N d : ℕ) (m : M Tape (WTree V)) (U : Finset V) (T : Finset (Finset (V × V))) (μ : Finset (V × V) → ℚ) : Prop where
  pos : 0 < N
  draws : Draws d m
  returns : ∀ w, ∃ t w', m w = (.ok t, w') ∧ t.graph.nodes = U ∧ t.graph.edges ∈ T
  law : ∀ E ∈ T, prob N d m (fun r => hasEdges E r = true) = μ E

theorem avg_sum {ι : Type} (N L : ℕ) (s : Finset ι) (φ : ι → Tape → ℚ) : avg N L (fun t => ∑ i ∈ s, φ i t) = ∑ i ∈ s, avg N L (φ i) := by
  classical
  unfold avg
  rw [Finset.sum_comm, Finset.sum_div]

/-- what happens after the tree is drawn -/
theorem SpanLaw.avg {α : Type} {N d : ℕ} {m : M Tape (WTree V)} {U : Finset V} {T : Finset (Finset (V × V))} {μ : Finset (V × V) → ℚ}
    (h : SpanLaw N d m U T μ) (f : WTree V → M Tape α) (g : Py α → ℚ) (ψ : Finset (V × V) → ℚ) (j L : ℕ) (hL : d + j ≤ L)
    (hf : ∀ t, t.graph.nodes = U → t.graph.edges ∈ T → ∀ L', j ≤ L' → avg N L' (fun w => g (f t w).1) = ψ t.graph.edges) :
    avg N L (fun w => g ((m >>= f) w).1) = ∑ E ∈ T, μ E * ψ E := by
  classical
  set Φ : Py (WTree V) → Tape → ℚ := fun r w => match r with
    | .ok t => if t.graph.nodes = U ∧ t.graph.edges ∈ T then g (f t w).1 else 0
    | .error _ => 0 with hΦ
  set ψ' : Py (WTree V) → ℚ := fun r => match r with
    | .ok t => if t.graph.nodes = U ∧ t.graph.edges ∈ T then ψ t.graph.edges else 0
    | .error _ => 0 with hψ
  have e1 : ∀ w, g ((m >>= f) w).1 = Φ (m w).1 (m w).2 := by
    intro w
    obtain ⟨t, w', h1, h2, h3⟩ := h.returns w
    rw [M.bind_ok h1, h1]
    simp only [hΦ]
    rw [if_pos ⟨h2, h3⟩]
  rw [avg_congr N L e1, avg_draws h.pos h.draws (Φ := Φ) (ψ := ψ') j L hL ?_ d (le_refl _)]
  · have e2 : ∀ w, ψ' (m w).1 = ∑ E ∈ T, ψ E * if hasEdges E (m w).1 = true then (1 : ℚ) else 0 := by
      intro w
      obtain ⟨t, w', h1, h2, h3⟩ := h.returns w
      rw [h1]
      simp only [hψ]
      rw [if_pos ⟨h2, h3⟩, Finset.sum_eq_single t.graph.edges]
      · simp [hasEdges]
      · intro E _ hne
        have : hasEdges E (.ok t) = false := by
          unfold hasEdges
          exact decide_eq_false (fun e => hne e.symm)
        simp [this]
      · intro hn
        exact absurd h3 hn
    rw [avg_congr N d e2, avg_sum]
    refine Finset.sum_congr rfl (fun E hE => ?_)
    rw [avg_mul, ← h.law E hE, mul_comm]
    rfl
  · intro r L' hL'
    rcases r with e | t
    · simp only [hΦ, hψ]
      exact avg_const h.pos L' 0
    · simp only [hΦ, hψ]
      by_cases ht : t.graph.nodes = U ∧ t.graph.edges ∈ T
      · simp only [if_pos ht]
        exact hf t ht.1 ht.2 L' hL'
      · simp only [if_neg ht]
        exact avg_const h.pos L' 0

/-- the probabilities add up to one -/
theorem SpanLaw.sum {N d : ℕ} {m : M Tape (WTree V)} {U : Finset V} {T : Finset (Finset (V × V))} {μ : Finset (V × V) → ℚ}
    (h : SpanLaw N d m U T μ) : ∑ E ∈ T, μ E = 1 := by
  have h1 := h.avg (fun _ => (pure () : M Tape Unit)) (fun _ => 1) (fun _ => 1) 0 d (by omega) (fun t _ _ L' _ => avg_const h.pos L' 1)
  rw [avg_const h.pos] at h1
  rw [h1]
  simp

theorem SpanLaw.nonneg {N d : ℕ} {m : M Tape (WTree V)} {U : Finset V} {T : Finset (Finset (V × V))} {μ : Finset (V × V) → ℚ}
    (h : SpanLaw N d m U T μ) {E : Finset (V × V)} (hE : E ∈ T) : 0 ≤ μ E := by
  rw [← h.law E hE]
  unfold prob GC.avg
  refine div_nonneg (Finset.sum_nonneg (fun t _ => ?_)) (by positivity)
  show (0 : ℚ) ≤ if _ then 1 else 0
  split_ifs <;> norm_num

/-! ### The loop -/

/-- What the loop needs to know about the trees: `d` bounds the numbers drawn by the balance function, `good` are the trees with a cut, and `val` is
the average of `g` over the choice of the cut. -/
structure TreeValues (N d0 d : ℕ) (cfg : BipConfig V Tape) (cutChoice : PopGraph V → List (Cut V) → M Tape (Cut V)) (G : Graph V) (pop : V → ℚ)
    (target eps : ℚ) (T : Finset (Finset (V × V))) (μ : Finset (V × V) → ℚ) (good : Finset (V × V) → Prop) (g : Py (Finset V) → ℚ)
    (val : Finset (V × V) → ℚ) : Prop where
  span : SpanLaw N d0 (cfg.spanFn G) G.nodes T μ
  repeats : 0 < cfg.nodeRepeats
  error : ∀ e, g (.error e) = 0
  draws : ∀ h : PopGraph V, h.graph.nodes = G.nodes → Draws d (cfg.balanceFn h)
  cuts : ∀ E ∈ T, ∀ wt w, ∃ cuts w', cfg.balanceFn (PopGraph.init G.nodes ⟨G.nodes, E⟩ wt pop target eps) w = (.ok cuts, w') ∧
    (good E ↔ cuts ≠ []) ∧ (cuts ≠ [] → ∀ L, 1 ≤ L → avg N L (fun w => g ((do
      let c ← cutChoice (PopGraph.init G.nodes ⟨G.nodes, E⟩ wt pop target eps) cuts
      pure c.subset : M Tape (Finset V)) w).1) = val E)
  bad : ∀ E ∈ T, ¬ good E → val E = 0

/-- What the loop needs to know about the trees: `d` bounds the numbers drawn by the balance function, `good` are the trees with a cut, and `val` is
the average of `g` over the draws of the balance function and the choice of the cut. -/
structure TreeMeans (N d0 d : ℕ) (cfg : BipConfig V Tape) (cutChoice : PopGraph V → List (Cut V) → M Tape (Cut V)) (G : Graph V) (pop : V → ℚ)
    (target eps : ℚ) (T : Finset (Finset (V × V))) (μ : Finset (V × V) → ℚ) (good : Finset (V × V) → Prop) (g : Py (Finset V) → ℚ)
    (val : Finset (V × V) → ℚ) : Prop where
  span : SpanLaw N d0 (cfg.spanFn G) G.nodes T μ
  repeats : 0 < cfg.nodeRepeats
  error : ∀ e, g (.error e) = 0
  draws : ∀ h : PopGraph V, h.graph.nodes = G.nodes → Draws d (cfg.balanceFn h)
  cut : ∀ E ∈ T, good E → ∀ wt w, ∃ cuts w', cfg.balanceFn (PopGraph.init G.nodes ⟨G.nodes, E⟩ wt pop target eps) w = (.ok cuts, w') ∧ cuts ≠ []
  nocut : ∀ E ∈ T, ¬ good E → ∀ wt w, ∃ w', cfg.balanceFn (PopGraph.init G.nodes ⟨G.nodes, E⟩ wt pop target eps) w = (.ok [], w')
  mean : ∀ E ∈ T, good E → ∀ wt L, d + 1 ≤ L → avg N L (fun w => g ((do
      let cuts ← cfg.balanceFn (PopGraph.init G.nodes ⟨G.nodes, E⟩ wt pop target eps)
      let c ← cutChoice (PopGraph.init G.nodes ⟨G.nodes, E⟩ wt pop target eps) cuts
      pure c.subset : M Tape (Finset V)) w).1) = val E
  bad : ∀ E ∈ T, ¬ good E → val E = 0

open Classical in
/-- the probability of a tree without a cut -/
noncomputable def badShare (T : Finset (Finset (V × V))) (μ : Finset (V × V) → ℚ) (good : Finset (V × V) → Prop) : ℚ :=
  ∑ E ∈ T.filter (fun E => ¬ good E), μ E

variable {N d0 d : ℕ} {T : Finset (Finset (V × V))} {μ : Finset (V × V) → ℚ} {good : Finset (V × V) → Prop} {g : Py (Finset V) → ℚ} {val : Finset (V × V) → ℚ}

/-- the average of `val`, and after that many trees -/
noncomputable def triedValue (T : Finset (Finset (V × V))) (μ : Finset (V × V) → ℚ) (good : Finset (V × V) → Prop) (val : Finset (V × V) → ℚ) (n : ℕ) : ℚ :=
  (∑ E ∈ T, μ E * val E) * ∑ i ∈ Finset.range n, badShare T μ good ^ i

theorem WTree.eq_mk {t : WTree V} {U : Finset V} (h : t.graph.nodes = U) : t = ⟨⟨U, t.graph.edges⟩, t.weight⟩ := by
  subst h
  rfl

theorem TreeMeans.attempt (h : TreeMeans N d0 d cfg cutChoice G pop target eps T μ good g val) {t : WTree V} (ht : t.graph.nodes = G.nodes)
    (hE : t.graph.edges ∈ T) {f k a j : ℕ} {x : ℚ}
    (hrest : ¬ good t.graph.edges → ∀ L, j ≤ L → avg N L (fun w => g (bipLoop cfg cutChoice false G pop target eps f t (k + 1) (a + 1) w).1) = x)
    (hj : 1 ≤ j) (L : ℕ) (hL : d + j ≤ L) [Decidable (good t.graph.edges)] :
    avg N L (fun w => g (attemptOn cfg cutChoice G pop target eps f k a t w).1) = if good t.graph.edges then val t.graph.edges else x := by
  have hg : t.graph = ⟨G.nodes, t.graph.edges⟩ := by rw [← ht]
  by_cases hgood : good t.graph.edges
  · rw [if_pos hgood, ← h.mean t.graph.edges hE hgood t.weight L (by omega), ← hg]
    refine avg_congr N L (fun w => ?_)
    unfold attemptOn
    obtain ⟨cuts, w', k1, k2⟩ := h.cut t.graph.edges hE hgood t.weight w
    rw [← hg] at k1
    rw [M.bind_ok k1, M.bind_ok k1, if_pos k2]
  · rw [if_neg hgood]
    unfold attemptOn
    refine avg_bind_const h.span.pos (h.draws _ ht) j L hL ?_ ?_
    · intro w w' cuts hc L' hL'
      obtain ⟨w'', k1⟩ := h.nocut t.graph.edges hE hgood t.weight w
      rw [← hg] at k1
      rw [k1] at hc
      cases hc
      rw [if_neg (by simp)]
      exact hrest hgood L' hL'
    · intro w w' e he
      obtain ⟨w'', k1⟩ := h.nocut t.graph.edges hE hgood t.weight w
      rw [← hg] at k1
      rw [k1] at he
      cases he

open Classical in
theorem TreeMeans.fresh (h : TreeMeans N d0 d cfg cutChoice G pop target eps T μ good g val) {f a j : ℕ} {n : ℕ}
    (hrest : ∀ t : WTree V, t.graph.nodes = G.nodes → t.graph.edges ∈ T → ¬ good t.graph.edges → ∀ L, j ≤ L →
      avg N L (fun w => g (bipLoop cfg cutChoice false G pop target eps f t 1 (a + 1) w).1) = triedValue T μ good val n)
    (hj : 1 ≤ j) (L : ℕ) (hL : d0 + d + j ≤ L) :
    avg N L (fun w => g ((cfg.spanFn G >>= fun t => attemptOn cfg cutChoice G pop target eps f 0 a t) w).1) = triedValue T μ good val (n + 1) := by
  rw [h.span.avg (fun t => attemptOn cfg cutChoice G pop target eps f 0 a t) g (fun E => if good E then val E else triedValue T μ good val n) (d + j) L
    (by omega) (fun t ht hE L' hL' => h.attempt ht hE (hrest t ht hE) hj L' hL')]
  have e1 : ∀ E ∈ T, μ E * (if good E then val E else triedValue T μ good val n) =
      μ E * val E + if ¬ good E then μ E * triedValue T μ good val n else 0 := by
    intro E hE
    by_cases hg : good E
    · rw [if_pos hg, if_neg (not_not.2 hg), add_zero]
    · rw [if_neg hg, if_pos hg, h.bad E hE hg, mul_zero, zero_add]
  rw [Finset.sum_congr rfl e1, Finset.sum_add_distrib, ← Finset.sum_filter, ← Finset.sum_mul]
  have hq : ∑ E ∈ T.filter (fun E => ¬ good E), μ E = badShare T μ good := rfl
  rw [hq]
  unfold triedValue
  rw [Finset.sum_range_succ']
  simp only [pow_succ, ← Finset.sum_mul, pow_zero]
  ring

/-- the value of the loop when the present tree has no cut -/
theorem TreeMeans.loop (h : TreeMeans N d0 d cfg cutChoice G pop target eps T μ good g val) {m : ℕ} (hm : cfg.maxAttempts = some m) (n : ℕ) :
    ∀ t : WTree V, t.graph.nodes = G.nodes → t.graph.edges ∈ T → ¬ good t.graph.edges → ∀ k ≤ cfg.nodeRepeats, ∀ f a : ℕ, a + n = m → n < f →
      ∀ L, 1 + n * (d0 + d) ≤ L → avg N L (fun w => g (bipLoop cfg cutChoice false G pop target eps f t k a w).1) =
        triedValue T μ good val (treesTried cfg.nodeRepeats (n - (cfg.nodeRepeats - k))) := by
  classical
  induction n with
  | zero =>
    intro t ht hE hg k hk f a ha hf L hL
    obtain ⟨f, rfl⟩ : ∃ f', f = f' + 1 := ⟨f - 1, by omega⟩
    rw [bipLoop_over hm (by omega), Nat.zero_sub, treesTried_zero h.repeats]
    have : ∀ w : Tape, g ((M.raise .runtimeError : M Tape (Finset V)) w).1 = 0 := fun w => h.error _
    rw [avg_congr N L this, avg_const h.span.pos]
    simp [triedValue]
  | succ n ih =>
    intro t ht hE hg k hk f a ha hf L hL
    obtain ⟨f, rfl⟩ : ∃ f', f = f' + 1 := ⟨f - 1, by omega⟩
    have hL' : d0 + d + (1 + n * (d0 + d)) ≤ L := by
      have : (n + 1) * (d0 + d) = n * (d0 + d) + (d0 + d) := by ring
      omega
    by_cases hkr : k = cfg.nodeRepeats
    · subst hkr
      rw [bipLoop_fresh hm (by omega), Nat.sub_self, Nat.sub_zero, treesTried_succ h.repeats]
      refine h.fresh (j := 1 + n * (d0 + d)) (fun t' ht' hE' hg' L'' hL'' => ?_) (by omega) L hL'
      rw [ih t' ht' hE' hg' 1 h.repeats f (a + 1) (by omega) (by omega) L'' hL'']
      have hr := h.repeats
      congr 2
      omega
    · rw [bipLoop_same hm (by omega) hkr]
      rw [h.attempt (j := 1 + n * (d0 + d)) ht hE (fun hg' L'' hL'' => ih t ht hE hg' (k + 1) (by omega) f (a + 1) (by omega) (by omega) L'' hL'')
        (by omega) L (by omega), if_neg hg]
      congr 2
      omega

/-- the average of `g` over the results of `bipartition_tree` -/
theorem TreeMeans.bipartition (h : TreeMeans N d0 d cfg cutChoice G pop target eps T μ good g val) {m : ℕ} (hm : cfg.maxAttempts = some m) {fuel : ℕ}
    (hf : m < fuel) (L : ℕ) (hL : 1 + m * (d0 + d) ≤ L) :
    avg N L (fun w => g (bipartitionTree cfg cutChoice false fuel none G pop target eps w).1) =
      triedValue T μ good val (treesTried cfg.nodeRepeats m) := by
  classical
  unfold bipartitionTree
  obtain ⟨f, rfl⟩ : ∃ f', fuel = f' + 1 := ⟨fuel - 1, by omega⟩
  have hr := h.repeats
  cases m with
  | zero =>
    rw [treesTried_zero h.repeats]
    show avg N L (fun w => g ((cfg.spanFn G >>= fun t => bipLoop cfg cutChoice false G pop target eps (f + 1) t 0 0) w).1) = _
    have : ∀ w : Tape, g ((cfg.spanFn G >>= fun t => bipLoop cfg cutChoice false G pop target eps (f + 1) t 0 0) w).1 = 0 := by
      intro w
      obtain ⟨t, w', h1, -⟩ := h.span.returns w
      rw [M.bind_ok h1, bipLoop_over hm (le_refl _)]
      exact h.error _
    rw [avg_congr N L this, avg_const h.span.pos]
    simp [triedValue]
  | succ m =>
    have hprog : (cfg.spanFn G >>= fun t => bipLoop cfg cutChoice false G pop target eps (f + 1) t 0 0) =
        cfg.spanFn G >>= fun t => attemptOn cfg cutChoice G pop target eps f 0 0 t := by
      congr 1
      funext t
      exact bipLoop_same hm (by omega) (by omega) t
    show avg N L (fun w => g ((cfg.spanFn G >>= fun t => bipLoop cfg cutChoice false G pop target eps (f + 1) t 0 0) w).1) = _
    rw [hprog, treesTried_succ hr]
    refine h.fresh (j := 1 + m * (d0 + d)) (fun t' ht' hE' hg' L'' hL'' => ?_) (by omega) L ?_
    · rw [h.loop hm m t' ht' hE' hg' 1 hr f (0 + 1) (by omega) (by omega) L'' hL'']
      congr 2
      omega
    · have : (m + 1) * (d0 + d) = m * (d0 + d) + (d0 + d) := by ring
      omega

theorem TreeValues.toMeans (h : TreeValues N d0 d cfg cutChoice G pop target eps T μ good g val) :
    TreeMeans N d0 d cfg cutChoice G pop target eps T μ good g val := by
  refine ⟨h.span, h.repeats, h.error, h.draws, ?_, ?_, ?_, h.bad⟩
  · intro E hE hg wt w
    obtain ⟨cuts, w', k1, k2, -⟩ := h.cuts E hE wt w
    exact ⟨cuts, w', k1, k2.1 hg⟩
  · intro E hE hg wt w
    obtain ⟨cuts, w', k1, k2, -⟩ := h.cuts E hE wt w
    have : cuts = [] := by
      by_contra hne
      exact hg (k2.2 hne)
    exact ⟨w', this ▸ k1⟩
  · intro E hE hg wt L hL
    refine avg_bind_const h.span.pos (h.draws _ rfl) 1 L hL ?_ ?_
    · intro w w' cuts hc L' hL'
      obtain ⟨cuts', w'', k1, k2, k3⟩ := h.cuts E hE wt w
      rw [k1] at hc
      cases hc
      exact k3 (k2.1 hg) L' hL'
    · intro w w' e he
      obtain ⟨cuts', w'', k1, -⟩ := h.cuts E hE wt w
      rw [k1] at he
      cases he

/-- the average of `g` over the results of `bipartition_tree` -/
theorem TreeValues.bipartition (h : TreeValues N d0 d cfg cutChoice G pop target eps T μ good g val) {m : ℕ} (hm : cfg.maxAttempts = some m) {fuel : ℕ}
    (hf : m < fuel) (L : ℕ) (hL : 1 + m * (d0 + d) ≤ L) :
    avg N L (fun w => g (bipartitionTree cfg cutChoice false fuel none G pop target eps w).1) =
      triedValue T μ good val (treesTried cfg.nodeRepeats m) := h.toMeans.bipartition hm hf L hL

end loop

end GC

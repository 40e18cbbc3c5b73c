import Verif.Props.DetailedBalance
import Verif.Props.Wilson

/-!
# Replacing the ideal spanning tree by the one of Wilson's algorithm

A run of the program on a tape that does not end before the tree is complete is a run on a strict tape.
-/

set_option linter.unusedSectionVars false
set_option autoImplicit false

namespace GC

variable {α β : Type}

/-- the value of a result; errors count 0 -/
def okValue (v : α → ℚ) : Py α → ℚ
  | .ok x => v x
  | .error _ => 0

theorem avg_sub_le {N : ℕ} (hN : 0 < N) (L : ℕ) {φ : Tape → ℚ} (h0 : ∀ t, 0 ≤ φ t) (h1 : ∀ t, φ t ≤ 1) : 0 ≤ avg N L φ ∧ avg N L φ ≤ 1 := by
  constructor
  · rw [← avg_const hN L 0]
    exact avg_mono L h0
  · rw [← avg_const hN L 1]
    exact avg_mono L h1

open Classical in
/-- A program that goes on with `ψ x` wherever the strict program `m` has returned `x`: its average is the expected value of the averages of the
`ψ x`, up to the probability that `m` has not returned. -/
theorem avg_coupled {N : ℕ} (hN : 0 < N) {m : M Tape α} (hm : Strict m) {φ : Tape → ℚ} (h0 : ∀ t, 0 ≤ φ t) (h1 : ∀ t, φ t ≤ 1) {ψ : α → Tape → ℚ}
    {v : α → ℚ} (L1 L2 : ℕ) (hφ : ∀ t t' x, m t = (.ok x, t') → φ t = ψ x t')
    (hψ : ∀ t t' x, m t = (.ok x, t') → ∀ L, L2 ≤ L → avg N L (ψ x) = v x) :
    |avg N (L1 + L2) φ - avg N L1 (fun t => okValue v (m t).1)| ≤ 1 - prob N L1 m IsOk := by
  induction hm generalizing L1 φ with
  | @done m r h =>
    cases r with
    | ok x =>
      rw [prob_eq_one hN L1 (fun t => ⟨x, by rw [h]⟩), sub_self, abs_nonpos_iff, sub_eq_zero]
      rw [avg_congr N _ (fun t => hφ t t x (h t)), hψ [] [] x (h _) _ (by omega)]
      rw [avg_congr N L1 (ψ := fun _ => v x) (fun t => by rw [h t]; rfl), avg_const hN]
    | error e =>
      rw [prob_eq_zero hN L1 (fun t => by rw [h]; rintro ⟨a, ha⟩; cases ha), sub_zero]
      have : avg N L1 (fun t => okValue v (m t).1) = 0 := by
        rw [avg_congr N L1 (ψ := fun _ => 0) (fun t => by rw [h t]; rfl), avg_const hN]
      rw [this, sub_zero, abs_le]
      obtain ⟨k1, k2⟩ := avg_sub_le hN (L1 + L2) h0 h1
      constructor <;> linarith
  | @draw m f h hz hf ih =>
    cases L1 with
    | zero =>
      have e1 : prob N 0 m IsOk = 0 := by
        unfold prob
        rw [avg_zero, if_neg]
        rw [hz]
        rintro ⟨a, ha⟩
        cases ha
      have e2 : avg N 0 (fun t => okValue v (m t).1) = 0 := by
        rw [avg_zero, hz]
        rfl
      rw [e1, e2, sub_zero, sub_zero, abs_le]
      obtain ⟨k1, k2⟩ := avg_sub_le hN (0 + L2) h0 h1
      constructor <;> linarith
    | succ L1 =>
      have e1 : prob N (L1 + 1) m IsOk = (∑ i ∈ Finset.range N, prob N L1 (f i) IsOk) / N := by
        unfold prob
        rw [avg_succ]
        simp only [h]
      have e2 : avg N (L1 + 1) (fun t => okValue v (m t).1) = (∑ i ∈ Finset.range N, avg N L1 (fun t => okValue v (f i t).1)) / N := by
        rw [avg_succ]
        simp only [h]
      rw [e1, e2, show L1 + 1 + L2 = (L1 + L2) + 1 by omega, avg_succ, ← sub_div, ← Finset.sum_sub_distrib]
      have hNQ : (0 : ℚ) < N := by exact_mod_cast hN
      rw [abs_div, abs_of_pos hNQ, div_le_iff₀ hNQ, sub_mul, one_mul, div_mul_cancel₀ _ hNQ.ne']
      have hs : ∑ i ∈ Finset.range N, (1 - prob N L1 (f i) IsOk) = N - ∑ i ∈ Finset.range N, prob N L1 (f i) IsOk := by
        rw [Finset.sum_sub_distrib]
        simp
      rw [← hs]
      refine (Finset.abs_sum_le_sum_abs _ _).trans (Finset.sum_le_sum (fun i _ => ?_))
      exact ih i (φ := fun t => φ (i :: t)) (fun t => h0 _) (fun t => h1 _) L1 (fun t t' x hx => hφ (i :: t) t' x (by rw [h]; exact hx))
        (fun t t' x hx => hψ (i :: t) t' x (by rw [h]; exact hx))

/-! ### Strict runs are runs -/

theorem choice_strict {N : ℕ} {l : List α} {t t' : Tape} {x : α} (h : (strictRand N).choice l t = (.ok x, t')) :
    (uniRand N).choice l t = (.ok x, t') := by
  cases l with
  | nil => exact h
  | cons y l =>
    cases t with
    | nil => cases h
    | cons i t => exact h

theorem M.bind_returns {S α β : Type} {m : M S α} {f : α → M S β} {s s' : S} {y : β} (h : (m >>= f) s = (.ok y, s')) :
    ∃ x s1, m s = (.ok x, s1) ∧ f x s1 = (.ok y, s') := by
  change M.bind m f s = _ at h
  unfold M.bind at h
  rcases hm : m s with ⟨e | x, s1⟩
  · rw [hm] at h
    cases h
  · rw [hm] at h
    exact ⟨x, s1, rfl, h⟩

theorem M.bind_of_ok {S α β : Type} {m : M S α} {f : α → M S β} {s s1 : S} {x : α} (h : m s = (.ok x, s1)) : (m >>= f) s = f x s1 := by
  show M.bind m f s = _
  unfold M.bind
  rw [h]

variable {V : Type} [LinearOrder V]

theorem walk_strict {N : ℕ} {G : Graph V} {T : Finset V} : ∀ (fuel : ℕ) (next : Dict V (Option V)) (u : V) (t t' : Tape) (r : Dict V (Option V)),
    wilsonWalk (strictRand N) G T fuel next u t = (.ok r, t') → wilsonWalk (uniRand N) G T fuel next u t = (.ok r, t') := by
  intro fuel
  induction fuel with
  | zero => intro next u t t' r h; exact h
  | succ n ih =>
    intro next u t t' r h
    unfold wilsonWalk at h ⊢
    split_ifs at h ⊢
    · exact h
    · obtain ⟨x, t1, h1, h2⟩ := M.bind_returns h
      rw [M.bind_of_ok (choice_strict h1)]
      exact ih _ _ _ _ _ h2

theorem loop_strict {N : ℕ} {G : Graph V} {fuel : ℕ} : ∀ (l : List V) (T : Finset V) (next : Dict V (Option V)) (t t' : Tape) (r : Finset V × Dict V (Option V)),
    wilsonLoop (strictRand N) G fuel l T next t = (.ok r, t') → wilsonLoop (uniRand N) G fuel l T next t = (.ok r, t') := by
  intro l
  induction l with
  | nil => intro T next t t' r h; exact h
  | cons v l ih =>
    intro T next t t' r h
    unfold wilsonLoop at h ⊢
    obtain ⟨x, t1, h1, h2⟩ := M.bind_returns h
    rw [M.bind_of_ok (walk_strict _ _ _ _ _ _ h1)]
    obtain ⟨y, t2, h3, h4⟩ := M.bind_returns h2
    rw [M.bind_of_ok (m := M.lift _) h3]
    exact ih _ _ _ _ _ h4

/-- where the strict run of `uniform_spanning_tree` returns, the run on the tape that goes on with zeros returns the same -/
theorem span_strict {N : ℕ} {G : Graph V} {fuel : ℕ} {t t' : Tape} {T : WTree V}
    (h : uniformSpanningTree (strictRand N) fuel G t = (.ok T, t')) : uniformSpanningTree (uniRand N) fuel G t = (.ok T, t') := by
  unfold uniformSpanningTree at h ⊢
  obtain ⟨root, t1, h1, h2⟩ := M.bind_returns h
  rw [M.bind_of_ok (choice_strict h1)]
  obtain ⟨r, t2, h3, h4⟩ := M.bind_returns h2
  rw [M.bind_of_ok (loop_strict _ _ _ _ _ _ h3)]
  exact h4

theorem strict_span (N fuel : ℕ) (G : Graph V) : Strict (uniformSpanningTree (strictRand N) fuel G) := by
  unfold uniformSpanningTree
  refine (strict_choice N _).bind (fun root => (strict_wilsonLoop N G fuel _ _ _).bind (fun r => ?_))
  exact (strict_lift _).bind (fun T => strict_pure _)

/-! ### The balance function reads the tree through its nodes and neighbours -/

theorem bfsGroups_congr {T T' : Graph V} (hn : ∀ v, T.neighbors v = T'.neighbors v) : ∀ (n : ℕ) (seen : Finset V) (q : List V),
    bfsGroups T n seen q = bfsGroups T' n seen q := by
  intro n
  induction n with
  | zero => intro seen q; rfl
  | succ n ih =>
    intro seen q
    cases q with
    | nil => rfl
    | cons p q =>
      unfold bfsGroups
      rw [hn p]
      simp only [ih]

theorem memoLoop_congr {S : Type} (R : Rand S) (fuel : ℕ) {h h' : PopGraph V} (pred : Dict V V) (succ : Dict V (List V)) (one : Bool)
    (hnodes : h.graph.nodes = h'.graph.nodes) (hw : h.weight = h'.weight) (htot : h.totPop = h'.totPop) (hid : h.idealPop = h'.idealPop)
    (heps : h.epsilon = h'.epsilon) : ∀ (l : List (V × ℚ)) (cuts : List (Cut V)), memoLoop R fuel h pred succ one l cuts = memoLoop R fuel h' pred succ one l cuts := by
  intro l
  induction l with
  | nil => intro cuts; rfl
  | cons x l ih =>
    intro cuts
    obtain ⟨node, p⟩ := x
    unfold memoLoop memoCut
    simp only [hnodes, hw, htot, hid, heps, ih]

theorem memoBalance_congr {S : Type} (R : Rand S) (one : Bool) (U : Finset V) {T T' : Graph V} (hnodes : T.nodes = T'.nodes)
    (hadj : ∀ u v, T.Adj u v ↔ T'.Adj u v) (w : V → V → Option ℚ) (pop : V → ℚ) (ideal eps : ℚ) :
    memoBalance R one (PopGraph.init U T w pop ideal eps) = memoBalance R one (PopGraph.init U T' w pop ideal eps) := by
  have hn : ∀ v, T.neighbors v = T'.neighbors v := by
    intro v
    unfold Graph.neighbors
    rw [hnodes]
    exact Finset.filter_congr (fun x _ => by rw [hadj])
  have hd : ∀ v, T.degree v = T'.degree v := by
    intro v
    unfold Graph.degree
    rw [hn]
  have hb : ∀ r, bfsFrom T r = bfsFrom T' r := by
    intro r
    unfold bfsFrom
    rw [hnodes]
    exact bfsGroups_congr hn _ _ _
  unfold memoBalance cutsMemoization
  simp only [PopGraph.init, hnodes, hd, predecessors, successors, hb]
  congr 1
  funext root
  congr 1
  funext pops
  exact memoLoop_congr R _ (h := PopGraph.init U T w pop ideal eps) (h' := PopGraph.init U T' w pop ideal eps) _ _ _ hnodes rfl rfl rfl rfl _ _

end GC

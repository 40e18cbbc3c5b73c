import Verif.Lemmas.Wilson
import Mathlib.Algebra.Order.Archimedean.Basic
import Mathlib.Data.Rat.Floor

/-!
# Wilson's algorithm ends with probability 1
-/

set_option linter.unusedSectionVars false
set_option autoImplicit false

namespace GC

variable {V : Type} [LinearOrder V]

/-- the probability that the random walk from `u` visits `root` within `L` steps -/
def hitProb (G : Graph V) (root : V) : ℕ → V → ℚ
  | 0, u => if u = root then 1 else 0
  | L + 1, u => if u = root then 1 else (∑ w ∈ G.neighbors u, hitProb G root L w) / (G.neighbors u).card

theorem hitProb_root (G : Graph V) (root : V) (L : ℕ) : hitProb G root L root = 1 := by
  cases L <;> simp [hitProb]

theorem hitProb_nonneg (G : Graph V) (root : V) (L : ℕ) (u : V) : 0 ≤ hitProb G root L u := by
  induction L generalizing u with
  | zero => rw [hitProb]; split_ifs <;> norm_num
  | succ L ih =>
    rw [hitProb]
    split_ifs
    · norm_num
    · exact div_nonneg (Finset.sum_nonneg (fun w _ => ih w)) (by positivity)

theorem hitProb_mono (G : Graph V) (root : V) (L : ℕ) (u : V) : hitProb G root L u ≤ hitProb G root (L + 1) u := by
  induction L generalizing u with
  | zero =>
    by_cases h : u = root
    · subst h; rw [hitProb_root, hitProb_root]
    · rw [hitProb, if_neg h]; exact hitProb_nonneg _ _ _ _
  | succ L ih =>
    rw [hitProb, hitProb]
    split_ifs
    · exact le_refl _
    · exact div_le_div_of_nonneg_right (Finset.sum_le_sum (fun w _ => ih w)) (by positivity)

theorem hitProb_mono' (G : Graph V) (root : V) {L L' : ℕ} (h : L ≤ L') (u : V) : hitProb G root L u ≤ hitProb G root L' u :=
  monotone_nat_of_le_succ (f := fun L => hitProb G root L u) (fun L => hitProb_mono G root L u) h

theorem hitProb_pos {G : Graph V} {root : V} {u : V} (h : ReachIn G G.nodes u root) : ∃ L, 0 < hitProb G root L u := by
  induction h using Relation.ReflTransGen.head_induction_on with
  | refl => exact ⟨0, by rw [hitProb_root]; norm_num⟩
  | @head a c hac _ ih =>
    obtain ⟨L, hL⟩ := ih
    refine ⟨L + 1, ?_⟩
    rw [hitProb]
    split_ifs
    · norm_num
    · have hc : c ∈ G.neighbors a := Finset.mem_filter.2 ⟨hac.2.2, hac.1⟩
      refine div_pos (lt_of_lt_of_le hL (Finset.single_le_sum (f := fun w => hitProb G root L w) (fun w _ => hitProb_nonneg _ _ _ _) hc)) ?_
      exact_mod_cast Finset.card_pos.2 ⟨c, hc⟩

/-- two phases of the walk -/
theorem hitProb_add {G : Graph V} {root : V} {M : ℕ} {b : ℚ} (hb : ∀ w ∈ G.nodes, 1 - hitProb G root M w ≤ b) (hb0 : 0 ≤ b)
    (hne : ∀ w ∈ G.nodes, w ≠ root → (G.neighbors w).Nonempty) : ∀ (L : ℕ) (u : V), u ∈ G.nodes → 1 - hitProb G root (L + M) u ≤ (1 - hitProb G root L u) * b := by
  intro L
  induction L with
  | zero =>
    intro u hu
    by_cases h : u = root
    · subst h; rw [hitProb_root, hitProb_root]; simp
    · rw [Nat.zero_add, hitProb, if_neg h]
      simpa using hb u hu
  | succ L ih =>
    intro u hu
    by_cases h : u = root
    · subst h; rw [hitProb_root, hitProb_root]; simp
    · rw [show L + 1 + M = (L + M) + 1 by omega, hitProb, hitProb, if_neg h, if_neg h]
      have hc : (0 : ℚ) < (G.neighbors u).card := by exact_mod_cast Finset.card_pos.2 (hne u hu h)
      have hs : ∀ F : V → ℚ, 1 - (∑ w ∈ G.neighbors u, F w) / (G.neighbors u).card = (∑ w ∈ G.neighbors u, (1 - F w)) / (G.neighbors u).card := by
        intro F
        rw [Finset.sum_sub_distrib, Finset.sum_const, nsmul_eq_mul, mul_one, sub_div, div_self hc.ne']
      rw [hs, hs, div_mul_eq_mul_div, Finset.sum_mul]
      exact div_le_div_of_nonneg_right (Finset.sum_le_sum (fun w hw => ih w (neighbors_sub G u hw))) hc.le

/-- On a connected graph the walk visits the root sooner or later. -/
theorem hitProb_limit {G : Graph V} (hconn : ConnectedOn G G.nodes) {root : V} (hr : root ∈ G.nodes) {ε : ℚ} (hε : 0 < ε) :
    ∃ L, ∀ u ∈ G.nodes, 1 - ε ≤ hitProb G root L u := by
  have hne : ∀ w ∈ G.nodes, w ≠ root → (G.neighbors w).Nonempty := by
    intro w hw h
    have := neighbors_ne_nil hconn hw hr h
    rw [Ne, iter_eq_nil] at this
    exact Finset.nonempty_of_ne_empty this
  have hex : ∀ u, ∃ L, u ∈ G.nodes → 0 < hitProb G root L u := by
    intro u
    by_cases hu : u ∈ G.nodes
    · obtain ⟨L, hL⟩ := hitProb_pos (hconn.2 u hu root hr)
      exact ⟨L, fun _ => hL⟩
    · exact ⟨0, fun h => absurd h hu⟩
  choose d hd using hex
  set D := G.nodes.sup d with hD
  obtain ⟨u0, hu0, hmin⟩ := Finset.exists_min_image G.nodes (fun u => hitProb G root D u) ⟨root, hr⟩
  set δ := hitProb G root D u0 with hδ
  have hδ0 : 0 < δ := lt_of_lt_of_le (hd u0 hu0) (hitProb_mono' G root (Finset.le_sup hu0) u0)
  have hδ1 : δ ≤ 1 := by
    have := hmin root hr
    rwa [hitProb_root] at this
  have key : ∀ m : ℕ, ∀ u ∈ G.nodes, 1 - hitProb G root (m * D) u ≤ (1 - δ) ^ m := by
    intro m
    induction m with
    | zero =>
      intro u _
      have := hitProb_nonneg G root (0 * D) u
      rw [pow_zero]
      linarith
    | succ m ih =>
      intro u hu
      rw [show (m + 1) * D = D + m * D by ring, show (1 - δ) ^ (m + 1) = (1 - δ) * (1 - δ) ^ m by ring]
      refine (hitProb_add ih (pow_nonneg (by linarith) m) hne D u hu).trans ?_
      refine mul_le_mul_of_nonneg_right ?_ (pow_nonneg (by linarith) m)
      have := hmin u hu
      linarith
  obtain ⟨m, hm⟩ := exists_pow_lt_of_lt_one hε (show 1 - δ < 1 by linarith)
  exact ⟨m * D, fun u hu => by have := key m u hu; linarith⟩

/-! ### The program -/

theorem strict_wilsonWalk (N : ℕ) (G : Graph V) (T : Finset V) : ∀ (fuel : ℕ) (next : Dict V (Option V)) (u : V),
    Strict (wilsonWalk (strictRand N) G T fuel next u) := by
  intro fuel
  induction fuel with
  | zero => intro next u; exact strict_raise _
  | succ n ih =>
    intro next u
    rw [wilsonWalk]
    split_ifs
    · exact strict_pure _
    · exact (strict_choice _ _).bind (fun v => ih _ _)

theorem strict_wilsonLoop (N : ℕ) (G : Graph V) (fuel : ℕ) : ∀ (l : List V) (T : Finset V) (next : Dict V (Option V)),
    Strict (wilsonLoop (strictRand N) G fuel l T next) := by
  intro l
  induction l with
  | nil => intro T next; exact strict_pure _
  | cons x l ih =>
    intro T next
    rw [wilsonLoop]
    exact (strict_wilsonWalk _ _ _ _ _ _).bind (fun _ => (strict_lift _).bind (fun _ => ih _ _))

open Classical in
theorem prob_walk_ge {G : Graph V} {N : ℕ} (hN : 0 < N) {root : V} (hdiv : ∀ v ∈ G.nodes, v ≠ root → (G.neighbors v).card ∣ N)
    (hne : ∀ w ∈ G.nodes, w ≠ root → (G.neighbors w).Nonempty) {T : Finset V} (hT : root ∈ T) :
    ∀ (L fuel : ℕ) (next : Dict V (Option V)) (u : V), L < fuel → u ∈ G.nodes → hitProb G root L u ≤ prob N L (wilsonWalk (strictRand N) G T fuel next u) IsOk := by
  intro L
  induction L with
  | zero =>
    intro fuel next u hf hu
    obtain ⟨n, rfl⟩ : ∃ n, fuel = n + 1 := ⟨fuel - 1, by omega⟩
    rw [hitProb]
    split_ifs with h
    · rw [prob_eq_one hN 0]
      intro t
      rw [wilsonWalk, if_pos (h ▸ hT)]
      exact ⟨next, rfl⟩
    · exact prob_nonneg hN _ _ _
  | succ L ih =>
    intro fuel next u hf hu
    obtain ⟨n, rfl⟩ : ∃ n, fuel = n + 1 := ⟨fuel - 1, by omega⟩
    by_cases hu' : u ∈ T
    · rw [prob_eq_one hN (L + 1) (fun t => by rw [wilsonWalk, if_pos hu']; exact ⟨next, rfl⟩)]
      rw [hitProb]
      split_ifs with h
      · exact le_refl _
      · have hc : (0 : ℚ) < (G.neighbors u).card := by exact_mod_cast Finset.card_pos.2 (hne u hu h)
        rw [div_le_one hc]
        refine (Finset.sum_le_sum (fun w hw => (ih (L + 1) next w (by omega) (neighbors_sub G u hw)).trans (prob_le_one hN _ _ _))).trans ?_
        rw [Finset.sum_const, nsmul_eq_mul, mul_one]
    · have h : u ≠ root := fun h => hu' (h ▸ hT)
      rw [wilsonWalk, if_neg hu', prob_choice hN L _ (by rw [Ne, iter_eq_nil]; exact (hne u hu h).ne_empty) (by rw [length_iter]; exact hdiv u hu h),
        length_iter, sum_map_iter, hitProb, if_neg h]
      exact div_le_div_of_nonneg_right (Finset.sum_le_sum (fun w hw => ih n _ w (by omega) (neighbors_sub G u hw))) (by positivity)

open Classical in
theorem prob_loop_ge {G : Graph V} (hconn : ConnectedOn G G.nodes) {N : ℕ} (hN : 0 < N) {root : V} (hr : root ∈ G.nodes)
    (hR : (strictRand N).Sound) (hdiv : ∀ v ∈ G.nodes, v ≠ root → (G.neighbors v).card ∣ N) : ∀ (l : List V), (∀ v ∈ l, v ∈ G.nodes) → ∀ ε : ℚ, 0 < ε → ε ≤ 1 →
      ∃ L0, ∀ (L fuel : ℕ) (T : Finset V) (next : Dict V (Option V)) (rank : V → ℕ), L0 ≤ L → L < fuel → WilsonInv G root T next rank →
        1 - ε ≤ prob N L (wilsonLoop (strictRand N) G fuel l T next) IsOk := by
  have hne : ∀ w ∈ G.nodes, w ≠ root → (G.neighbors w).Nonempty := by
    intro w hw h
    have := neighbors_ne_nil hconn hw hr h
    rw [Ne, iter_eq_nil] at this
    exact Finset.nonempty_of_ne_empty this
  intro l
  induction l with
  | nil =>
    intro _ ε hε _
    refine ⟨0, fun L fuel T next rank _ _ _ => ?_⟩
    rw [prob_eq_one hN L (fun t => ⟨(T, next), rfl⟩)]
    linarith
  | cons node rest ih =>
    intro hl ε hε hε1
    obtain ⟨L2, h2⟩ := ih (fun v hv => hl v (List.mem_cons_of_mem _ hv)) (ε / 2) (by linarith) (by linarith)
    obtain ⟨L1, h1⟩ := hitProb_limit hconn hr (ε := ε / 2) (by linarith)
    refine ⟨L1 + L2, fun L fuel T next rank hL hf hinv => ?_⟩
    obtain ⟨L1', rfl, hL1⟩ : ∃ L1', L = L1' + L2 ∧ L1 ≤ L1' := ⟨L - L2, by omega, by omega⟩
    rw [wilsonLoop]
    have hnode := hl node (by simp)
    have key := prob_bind_ge hN (strict_wilsonWalk N G T fuel next node) (E := IsOk) (c := 1 - ε / 2)
      (k := fun next' => M.lift (wilsonAttach next' (G.nodes.card + 1) T node) >>= fun T' => wilsonLoop (strictRand N) G fuel rest T' next') L1' L2 (by
        intro t t' next1 hw L hL hL'
        obtain ⟨T1, rank1, a1, hinv1, -, -⟩ := wilson_round hR hnode hinv hw
        have e : (M.lift (wilsonAttach next1 (G.nodes.card + 1) T node) >>= fun T' => wilsonLoop (strictRand N) G fuel rest T' next1) =
            wilsonLoop (strictRand N) G fuel rest T1 next1 := by
          rw [a1]
          rfl
        rw [e]
        exact h2 L fuel T1 next1 rank1 hL (by omega) hinv1)
    refine le_trans ?_ key
    have hp : 1 - ε / 2 ≤ prob N L1' (wilsonWalk (strictRand N) G T fuel next node) IsOk :=
      ((h1 node hnode).trans (hitProb_mono' G root hL1 node)).trans (prob_walk_ge hN hdiv hne hinv.root_mem L1' fuel next node (by omega) hnode)
    nlinarith

end GC

import Verif.Lemmas.WilsonSeries
import Verif.Lemmas.StrictTape
import Verif.Props.Spanning
import Mathlib.Data.List.Chain

/-!
# The probabilities of Wilson's algorithm

The probabilities of the results of `wilsonWalk` and `wilsonLoop` on tapes that end are the coefficients of the power series of Lemmas/WilsonSeries.
-/

set_option linter.unusedSectionVars false
set_option autoImplicit false

namespace GC

open PowerSeries

variable {V : Type} [LinearOrder V] {S : Type}

theorem wilson_bind_assoc {α β γ : Type} (m : M S α) (f : α → M S β) (g : β → M S γ) : (m >>= f) >>= g = m >>= fun x => f x >>= g := by
  funext s
  show M.bind (M.bind m f) g s = M.bind m (fun x => M.bind (f x) g) s
  unfold M.bind
  rcases m s with ⟨_ | x, s'⟩ <;> rfl

/-! ### The pointers of nodes in the tree do not change any more -/

theorem wilsonWalk_keeps {R : Rand S} {G : Graph V} {T : Finset V} : ∀ (fuel : ℕ) (next : Dict V (Option V)) (u : V) (w w' : S) (next' : Dict V (Option V)),
    wilsonWalk R G T fuel next u w = (.ok next', w') → ∀ v ∈ T, next'.get? v = next.get? v := by
  intro fuel
  induction fuel with
  | zero => intro next u w w' next' h; cases h
  | succ n ih =>
    intro next u w w' next' h v hv
    rw [wilsonWalk] at h
    by_cases hT : u ∈ T
    · rw [if_pos hT] at h
      cases h
      rfl
    · rw [if_neg hT] at h
      obtain ⟨x, w1, -, g2⟩ := M.bind_eq_ok h
      rw [ih _ _ _ _ _ g2 v hv, Dict.get?_set_ne]
      rintro rfl
      exact hT hv

theorem wilsonAttach_grows {next : Dict V (Option V)} : ∀ (fuel : ℕ) (T : Finset V) (u : V) (T' : Finset V), wilsonAttach next fuel T u = .ok T' → T ⊆ T' := by
  intro fuel
  induction fuel with
  | zero => intro T u T' h; cases h
  | succ n ih =>
    intro T u T' h
    rw [wilsonAttach] at h
    by_cases hT : u ∈ T
    · rw [if_pos hT] at h
      cases h
      exact le_refl _
    · rw [if_neg hT] at h
      rcases hg : next.get u with e | _ | v
      · rw [hg] at h; cases h
      · rw [hg] at h; cases h
      · rw [hg] at h
        exact (Finset.subset_insert _ _).trans (ih _ _ _ h)

theorem wilsonLoop_keeps {R : Rand S} {G : Graph V} {fuel : ℕ} : ∀ (l : List V) (T : Finset V) (next : Dict V (Option V)) (w w' : S) (T' : Finset V)
    (next' : Dict V (Option V)), wilsonLoop R G fuel l T next w = (.ok (T', next'), w') → ∀ v ∈ T, next'.get? v = next.get? v := by
  intro l
  induction l with
  | nil => intro T next w w' T' next' h v _; cases h; rfl
  | cons node rest ih =>
    intro T next w w' T' next' h v hv
    rw [wilsonLoop] at h
    obtain ⟨next1, w1, g1, g2⟩ := M.bind_eq_ok h
    obtain ⟨T1, w2, g3, g4⟩ := M.bind_eq_ok g2
    have g3 : (wilsonAttach next1 (G.nodes.card + 1) T node, w1) = (Except.ok T1, w2) := g3
    rw [ih _ _ _ _ _ _ g4 v (wilsonAttach_grows _ _ _ _ (Prod.mk.inj g3).1 hv), wilsonWalk_keeps _ _ _ _ _ _ g1 v hv]

/-! ### Paths along pointers -/

/-- the nodes of the list point to their successors -/
abbrev Along (next : Dict V (Option V)) (l : List V) : Prop := List.IsChain (fun a b => next.get? a = some (some b)) l

theorem wilsonAttach_along {next : Dict V (Option V)} (w : V) : ∀ (p : List V) (fuel : ℕ) (T : Finset V) (u : V), (p ++ [w]).head? = some u → p.Nodup →
    (∀ x ∈ p, x ∉ T) → w ∈ T → Along next (p ++ [w]) → p.length < fuel → wilsonAttach next fuel T u = .ok (T ∪ p.toFinset) := by
  intro p
  induction p with
  | nil =>
    intro fuel T u hu _ _ hw _ hf
    obtain ⟨n, rfl⟩ : ∃ n, fuel = n + 1 := ⟨fuel - 1, by simp at hf; omega⟩
    simp only [List.nil_append, List.head?_cons, Option.some.injEq] at hu
    subst hu
    rw [wilsonAttach, if_pos hw, List.toFinset_nil, Finset.union_empty]
  | cons x p ih =>
    intro fuel T u hu hnd hT hw hal hf
    obtain ⟨n, rfl⟩ : ∃ n, fuel = n + 1 := ⟨fuel - 1, by simp at hf; omega⟩
    simp only [List.cons_append, List.head?_cons, Option.some.injEq] at hu
    subst hu
    rw [List.nodup_cons] at hnd
    rw [wilsonAttach, if_neg (hT x (by simp))]
    rw [List.cons_append, Along, List.isChain_cons_iff] at hal
    rcases hal with hal | ⟨y, l, h1, h2, h3⟩
    · simp at hal
    · rw [(Dict.get_eq_ok_iff (d := next) (k := x) (v := some y)).2 h1]
      simp only
      rw [ih n (insert x T) y (by rw [h3]; rfl) hnd.2 ?_ (Finset.mem_insert_of_mem hw) (by rw [h3]; exact h2) (by simp at hf; omega)]
      · congr 1
        ext z; simp only [Finset.mem_union, Finset.mem_insert, List.mem_toFinset, List.mem_cons]; tauto
      · intro z hz h
        rcases Finset.mem_insert.1 h with rfl | h
        · exact hnd.1 hz
        · exact hT z (List.mem_cons_of_mem _ hz) h

theorem along_set {next : Dict V (Option V)} (o : Option V) : ∀ (p : List V) (u : V), p.getLast? = some u → p.Nodup → Along next p → Along (next.set u o) p := by
  intro p
  induction p with
  | nil => intro u _ _ _; exact List.isChain_nil
  | cons x p ih =>
    intro u hu hnd hal
    cases p with
    | nil => exact List.isChain_singleton _
    | cons y p =>
      rw [List.nodup_cons] at hnd
      rw [List.getLast?_cons_cons] at hu
      rw [Along, List.isChain_cons_cons] at hal ⊢
      refine ⟨?_, ih u hu hnd.2 hal.2⟩
      rw [Dict.get?_set_ne, hal.1]
      rintro rfl
      exact hnd.1 (List.mem_of_getLast? hu)

theorem along_iff {next : Dict V (Option V)} {f : V → V} (w : V) : ∀ (p : List V), Along next (p ++ [w]) →
    ((∀ v ∈ p, next.get? v = some (some (f v))) ↔ List.IsChain (fun a b => f a = b) (p ++ [w])) := by
  intro p
  induction p with
  | nil => intro _; simp
  | cons x p ih =>
    intro h
    rw [List.cons_append, Along, List.isChain_cons_iff] at h
    rcases h with h | ⟨y, l, h1, h2, h3⟩
    · simp at h
    · have := ih (by rw [h3]; exact h2)
      rw [List.cons_append, h3, List.isChain_cons_cons, ← h3, ← this]
      simp only [List.mem_cons, forall_eq_or_imp, h1, Option.some.injEq]
      exact and_congr eq_comm Iff.rfl

theorem rank_chain {f : V → V} {rank : V → ℕ} : ∀ (p : List V) (u : V), p.getLast? = some u → (∀ x ∈ p, rank (f x) < rank x) →
    List.IsChain (fun a b => f a = b) p → ∀ x ∈ p, rank u ≤ rank x := by
  intro p
  induction p with
  | nil => intro u _ _ _ x hx; simp at hx
  | cons x p ih =>
    intro u hu hr hc z hz
    cases p with
    | nil =>
      simp only [List.getLast?_singleton, Option.some.injEq] at hu
      simp only [List.mem_singleton] at hz
      rw [hz, hu]
    | cons y p =>
      rw [List.getLast?_cons_cons] at hu
      rw [List.isChain_cons_cons] at hc
      have ih := ih u hu (fun v hv => hr v (List.mem_cons_of_mem _ hv)) hc.2
      rcases List.mem_cons.1 hz with rfl | hz
      · have h1 := ih y (by simp)
        have h2 := hr z (by simp)
        rw [hc.1] at h2
        omega
      · exact ih z hz

theorem sum_map_iter {s : Finset V} (F : V → ℚ) : ((iter s).map F).sum = ∑ x ∈ s, F x := by
  conv_rhs => rw [← toFinset_iter s]
  exact (List.sum_toFinset F (nodup_iter s)).symm

theorem coeff_stepSeries_zero (k : ℕ) (φ : ℚ⟦X⟧) : coeff 0 (stepSeries k * φ) = 0 := by
  simp [stepSeries]

theorem coeff_stepSeries_succ (k L : ℕ) (φ : ℚ⟦X⟧) : coeff (L + 1) (stepSeries k * φ) = coeff L φ / k := by
  rw [stepSeries, mul_assoc, PowerSeries.coeff_C_mul, PowerSeries.coeff_succ_X_mul]
  ring

/-! ### The probabilities -/

/-- `f` points every node except the root to a neighbour that is nearer to the root -/
structure Pointing (G : Graph V) (root : V) (f : V → V) (rank : V → ℕ) : Prop where
  nbr : ∀ v ∈ G.nodes, v ≠ root → f v ∈ G.neighbors v
  lt : ∀ v ∈ G.nodes, v ≠ root → rank (f v) < rank v

/-- the loop ends with the pointers `f` -/
def EndsWith (G : Graph V) (root : V) (f : V → V) (r : Py (Finset V × Dict V (Option V))) : Prop :=
  ∃ T next, r = .ok (T, next) ∧ ∀ v ∈ G.nodes, v ≠ root → next.get? v = some (some (f v))

/-- the part `A` of the tree is built, with pointers as in `f` -/
structure Agrees (G : Graph V) (root : V) (f : V → V) (A : Finset V) (next : Dict V (Option V)) : Prop where
  root_mem : root ∈ A
  sub : A ⊆ G.nodes
  ptr : ∀ v ∈ A, v ≠ root → next.get? v = some (some (f v))

theorem not_endsWith_error (G : Graph V) (root : V) (f : V → V) (e : PyErr) : ¬ EndsWith G root f (.error e) := by
  rintro ⟨T, next, h, -⟩
  cases h

theorem neighbors_sub (G : Graph V) (v : V) : G.neighbors v ⊆ G.nodes := Finset.filter_subset _ _

open Classical in
/-- the probability that the loop over the nodes of the list ends with the pointers `f` -/
def LoopClaim (G : Graph V) (N fuel : ℕ) (root : V) (f : V → V) (rest : List V) : Prop :=
  ∀ (A : Finset V) (next : Dict V (Option V)) (L : ℕ), Agrees G root f A next → (∀ v ∈ G.nodes, v ∉ A → v ∈ rest) → L < fuel →
    prob N L (wilsonLoop (strictRand N) G fuel rest A next) (EndsWith G root f) = coeff L (treeSeries G.nodes G.neighbors (G.nodes \ A))

open Classical in
theorem walk_series {G : Graph V} {N : ℕ} (hN : 0 < N) {root : V} (hdiv : ∀ v ∈ G.nodes, v ≠ root → (G.neighbors v).card ∣ N) {f : V → V} {rank : V → ℕ}
    (hf : Pointing G root f rank) {fuel : ℕ} {rest : List V} (hloop : LoopClaim G N fuel root f rest) {A : Finset V} {x0 : V}
    (hcov : ∀ v ∈ G.nodes, v ∉ A → v ∈ x0 :: rest) :
    ∀ (L n : ℕ) (path : List V) (u : V) (next : Dict V (Option V)), L < n → L < fuel → path.head? = some x0 → path.getLast? = some u → path.Nodup →
      (∀ x ∈ path, x ∈ G.nodes \ A) → Along next path → Agrees G root f A next →
      prob N L (wilsonWalk (strictRand N) G A n next u >>= fun next' => M.lift (wilsonAttach next' (G.nodes.card + 1) A x0) >>= fun T =>
        wilsonLoop (strictRand N) G fuel rest T next') (EndsWith G root f) = coeff L (pathSeries G.nodes G.neighbors f (G.nodes \ A) path u) := by
  have hNb : ∀ v ∈ G.nodes, G.neighbors v ⊆ G.nodes := fun v _ => neighbors_sub G v
  intro L
  induction L with
  | zero =>
    intro n path u next hn _ hhead hlast hnd hp hal hag
    obtain ⟨m, rfl⟩ : ∃ m, n = m + 1 := ⟨n - 1, by omega⟩
    have huD := hp u (List.mem_of_getLast? hlast)
    obtain ⟨hu, huA⟩ := Finset.mem_sdiff.1 huD
    have hur : u ≠ root := fun h => huA (h ▸ hag.root_mem)
    rw [wilsonWalk, if_neg huA, wilson_bind_assoc]
    rw [prob_choice_zero _ _ _ (not_endsWith_error G root f)]
    · rw [pathSeries_step hNb f path _ u hlast hnd Finset.sdiff_subset hp (hf.nbr u hu hur), coeff_stepSeries_zero]
    · rw [Ne, iter_eq_nil]
      exact Finset.ne_empty_of_mem (hf.nbr u hu hur)
  | succ L ih =>
    intro n path u next hn hfuel hhead hlast hnd hp hal hag
    obtain ⟨m, rfl⟩ : ∃ m, n = m + 1 := ⟨n - 1, by omega⟩
    have hupath := List.mem_of_getLast? hlast
    have huD := hp u hupath
    obtain ⟨hu, huA⟩ := Finset.mem_sdiff.1 huD
    have hur : u ≠ root := fun h => huA (h ▸ hag.root_mem)
    have hD : G.nodes \ A ⊆ G.nodes := Finset.sdiff_subset
    rw [wilsonWalk, if_neg huA, wilson_bind_assoc]
    rw [prob_choice hN L _ (by rw [Ne, iter_eq_nil]; exact Finset.ne_empty_of_mem (hf.nbr u hu hur)) (by rw [length_iter]; exact hdiv u hu hur)]
    rw [pathSeries_step hNb f path _ u hlast hnd hD hp (hf.nbr u hu hur), coeff_stepSeries_succ, length_iter, sum_map_iter, map_sum]
    congr 1
    refine Finset.sum_congr rfl (fun w hw => ?_)
    have hwU : w ∈ G.nodes := neighbors_sub G u hw
    have hag' : Agrees G root f A (next.set u (some w)) := by
      refine ⟨hag.root_mem, hag.sub, fun v hv hne => ?_⟩
      rw [Dict.get?_set_ne, hag.ptr v hv hne]
      rintro rfl
      exact huA hv
    have halset := along_set (some w) path u hlast hnd hal
    have halw : Along (next.set u (some w)) (path ++ [w]) := by
      rw [Along, List.isChain_append]
      refine ⟨halset, List.isChain_singleton _, fun x hx y hy => ?_⟩
      rw [hlast] at hx
      cases hx
      cases hy
      exact Dict.get?_set_self _ _ _
    by_cases hwA : w ∈ A
    · -- the walk has reached the tree
      obtain ⟨m', rfl⟩ : ∃ m', m = m' + 1 := ⟨m - 1, by omega⟩
      have hatt : wilsonAttach (next.set u (some w)) (G.nodes.card + 1) A x0 = .ok (A ∪ path.toFinset) := by
        refine wilsonAttach_along w path _ A x0 ?_ hnd (fun x hx => (Finset.mem_sdiff.1 (hp x hx)).2) hwA halw ?_
        · cases path with
          | nil => simp at hhead
          | cons x p => exact hhead
        · rw [← List.toFinset_card_of_nodup hnd]
          exact Nat.lt_succ_of_le (Finset.card_le_card (fun x hx => hD (hp x (List.mem_toFinset.1 hx))))
      have hprog : (wilsonWalk (strictRand N) G A (m' + 1) (next.set u (some w)) w >>= fun next' =>
          M.lift (wilsonAttach next' (G.nodes.card + 1) A x0) >>= fun T => wilsonLoop (strictRand N) G fuel rest T next') =
          wilsonLoop (strictRand N) G fuel rest (A ∪ path.toFinset) (next.set u (some w)) := by
        rw [wilsonWalk, if_pos hwA]
        funext t
        show ((M.lift (wilsonAttach (next.set u (some w)) (G.nodes.card + 1) A x0) >>= fun T => wilsonLoop (strictRand N) G fuel rest T (next.set u (some w))) t) = _
        rw [hatt]
        rfl
      rw [hprog, pathSeries_out hNb f path _ w hnd hD hp (by simp [hwA]), zero_add]
      have hiff := along_iff (f := f) w path halw
      have hch : List.IsChain (fun a b => f a = b) (path ++ [w]) ↔ List.IsChain (fun a b => f a = b) path ∧ f u = w := by
        rw [List.isChain_append]
        constructor
        · rintro ⟨h1, -, h3⟩
          exact ⟨h1, h3 u hlast w rfl⟩
        · rintro ⟨h1, h3⟩
          refine ⟨h1, List.isChain_singleton _, fun x hx y hy => ?_⟩
          rw [hlast] at hx
          cases hx
          cases hy
          exact h3
      rw [hch] at hiff
      by_cases hgood : List.IsChain (fun a b => f a = b) path ∧ f u = w
      · rw [if_pos hgood]
        rw [hloop (A ∪ path.toFinset) (next.set u (some w)) L ?_ ?_ (by omega)]
        · congr 2
          ext z; simp only [Finset.mem_sdiff, Finset.mem_union, not_or]; tauto
        · refine ⟨Finset.mem_union_left _ hag.root_mem, Finset.union_subset hag.sub (fun x hx => hD (hp x (List.mem_toFinset.1 hx))), fun v hv hne => ?_⟩
          rcases Finset.mem_union.1 hv with hv | hv
          · exact hag'.ptr v hv hne
          · exact hiff.2 hgood v (List.mem_toFinset.1 hv)
        · intro v hv hvA
          rw [Finset.mem_union, not_or, List.mem_toFinset] at hvA
          rcases List.mem_cons.1 (hcov v hv hvA.1) with rfl | h
          · exact absurd (List.mem_of_head? hhead) hvA.2
          · exact h
      · rw [if_neg hgood, map_zero]
        refine prob_eq_zero hN L (fun t hE => ?_)
        obtain ⟨T, nx, hT, hall⟩ := hE
        refine hgood (hiff.1 (fun v hv => ?_))
        have hvD := Finset.mem_sdiff.1 (hp v hv)
        rw [← hall v hvD.1 (fun h => hvD.2 (h ▸ hag.root_mem))]
        exact (wilsonLoop_keeps rest _ _ t _ T nx (Prod.ext hT rfl) v (Finset.mem_union_right _ (List.mem_toFinset.2 hv))).symm
    · by_cases hwp : w ∈ path
      · -- the walk closes a loop, which is erased
        obtain ⟨p1, p2, rfl⟩ := List.append_of_mem hwp
        have hpre : p1 ++ w :: p2 = (p1 ++ [w]) ++ p2 := by simp
        rw [ih m (p1 ++ [w]) w (next.set u (some w)) (by omega) (by omega) ?_ (by simp) ?_ ?_ ?_ hag']
        · rw [if_neg, add_zero, pathSeries_cut hNb f p1 p2 _ w hnd hD hp]
          rintro ⟨hc, hfu⟩
          have h1 := rank_chain (rank := rank) _ u hlast (fun x hx => by
            have := Finset.mem_sdiff.1 (hp x hx)
            exact hf.lt x this.1 (fun h => this.2 (h ▸ hag.root_mem))) hc w hwp
          have h2 := hf.lt u hu hur
          rw [hfu] at h2
          omega
        · rw [← hhead]
          cases p1 <;> rfl
        · rw [hpre] at hnd
          exact (List.nodup_append.1 hnd).1
        · intro x hx
          refine hp x ?_
          rw [hpre]
          exact List.mem_append_left _ hx
        · rw [hpre, Along, List.isChain_append] at halset
          exact halset.1
      · -- the path gets longer
        have hnd' : (path ++ [w]).Nodup := by
          rw [List.nodup_append]
          refine ⟨hnd, List.nodup_singleton _, ?_⟩
          intro a ha b hb
          rw [List.mem_singleton] at hb
          rintro rfl
          exact hwp (hb ▸ ha)
        have hp' : ∀ x ∈ path ++ [w], x ∈ G.nodes \ A := by
          intro x hx
          rcases List.mem_append.1 hx with hx | hx
          · exact hp x hx
          · rw [List.mem_singleton] at hx
            subst hx
            exact Finset.mem_sdiff.2 ⟨hwU, hwA⟩
        rw [ih m (path ++ [w]) w (next.set u (some w)) (by omega) (by omega) ?_ (by simp) hnd' hp' halw hag']
        · rw [pathSeries_append hNb f path _ u w hlast hnd' hD hp']
        · cases path with
          | nil => simp at hhead
          | cons x p => exact hhead

open Classical in
/-- the probability that Wilson's algorithm ends with the pointers `f`, given the root -/
theorem loop_series {G : Graph V} {N : ℕ} (hN : 0 < N) {root : V} (hdiv : ∀ v ∈ G.nodes, v ≠ root → (G.neighbors v).card ∣ N) {f : V → V} {rank : V → ℕ}
    (hf : Pointing G root f rank) (fuel : ℕ) : ∀ (rest : List V), (∀ v ∈ rest, v ∈ G.nodes) → LoopClaim G N fuel root f rest := by
  have hNb : ∀ v ∈ G.nodes, G.neighbors v ⊆ G.nodes := fun v _ => neighbors_sub G v
  intro rest
  induction rest with
  | nil =>
    intro _ A next L hag hcov _
    have hA : G.nodes \ A = ∅ := by
      rw [Finset.sdiff_eq_empty_iff_subset]
      intro v hv
      by_contra h
      exact absurd (hcov v hv h) (by simp)
    rw [hA, treeSeries_empty]
    refine prob_eq_one hN L (fun t => ⟨A, next, rfl, fun v hv hne => hag.ptr v ?_ hne⟩)
    exact Finset.sdiff_eq_empty_iff_subset.1 hA hv
  | cons node rest ih =>
    intro hmem A next L hag hcov hL
    have ih := ih (fun v hv => hmem v (List.mem_cons_of_mem _ hv))
    by_cases hA : node ∈ A
    · obtain ⟨n, rfl⟩ : ∃ n, fuel = n + 1 := ⟨fuel - 1, by omega⟩
      rw [← ih A next L hag ?_ hL]
      · refine prob_congr N L (fun t => ?_)
        rw [wilsonLoop, wilsonWalk, if_pos hA]
        have : (M.lift (wilsonAttach next (G.nodes.card + 1) A node) >>= fun T => wilsonLoop (strictRand N) G (n + 1) rest T next) t =
            wilsonLoop (strictRand N) G (n + 1) rest A next t := by
          rw [wilsonAttach, if_pos hA]
          rfl
        exact iff_of_eq (congrArg (fun r => EndsWith G root f r.1) this)
      · intro v hv hvA
        rcases List.mem_cons.1 (hcov v hv hvA) with rfl | h
        · exact absurd hA hvA
        · exact h
    · have hD : node ∈ G.nodes \ A := Finset.mem_sdiff.2 ⟨hmem node (by simp), hA⟩
      have := walk_series hN hdiv hf ih hcov L fuel [node] node next hL hL rfl rfl (List.nodup_singleton _)
        (fun x hx => by rw [List.mem_singleton] at hx; subst hx; exact hD) (List.isChain_singleton _) hag
      rw [wilsonLoop, this, pathSeries, (hitSeries_spec hNb Finset.sdiff_subset hD).self]
      simp [pathSeries]

end GC

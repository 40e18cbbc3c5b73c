import Verif.Lemmas.RetryRun
import Verif.Props.FlipBi

/-!
# Whole runs of chains of flips (C104)

`list(MarkovChain(slow_reversible_propose, constraints, always_accept, …))` and the same with `slow_reversible_propose_bi`: the law of the list of plans, the
limit of ensemble averages, and why the law of the last plan has no limit for two districts.
-/

set_option linter.unusedSectionVars false
set_option autoImplicit false

namespace GC

variable {V P : Type} [LinearOrder V] [LinearOrder P]

/-- a node may be moved to a neighbouring district, and the result is the plan `m'` -/
def FlipMove (G : Graph V) (W : (V → Option P) → Bool) (m m' : V → Option P) : Prop := ∃ x ∈ allowedPairs G m W, moved m x.1 (m x.2) = m'

/-- one allowed move after the other -/
def FlipReach (G : Graph V) (W : (V → Option P) → Bool) : (V → Option P) → (V → Option P) → Prop := Relation.ReflTransGen (FlipMove G W)

/-- The plans of a run: `S` are the plans that allowed moves can reach from the initial plan `a`, which satisfies the constraints `W` and has an allowed move.
A node that may be moved has another neighbour in its district. -/
structure FlipSetting (G : Graph V) (W : (V → Option P) → Bool) (a : Assignment V P) (S : Finset (V → Option P)) : Prop where
  wf : G.WF
  coherent : a.Coherent
  covers : a.Covers G.nodes
  valid : W a.mapping.get? = true
  mem : ∀ m, m ∈ S ↔ FlipReach G W a.mapping.get? m
  back : ∀ m ∈ S, ∀ x ∈ allowedPairs G m W, ∃ w, w ≠ x.1 ∧ G.Adj x.1 w ∧ m w = m x.1
  moves : (allowedPairs G a.mapping.get? W).Nonempty

/-- the number of nodes in the district `p` -/
def districtSize (G : Graph V) (m : V → Option P) (p : P) : ℕ := (G.nodes.filter (fun v => m v = some p)).card

/-- The law of a proposal: a move of the node `v` has probability `u * r v`. -/
structure FlipLaw (N d : ℕ) (G : Graph V) (prop : PlanState V P → M Tape (PlanState V P)) (x : PlanState V P) (u : ℚ) (r : V → ℚ) : Prop where
  draws : Draws d (prop x)
  total : ∀ t, ∃ f ∈ moveSet G x.plan, (prop x t).1 = x.flip ⟨[f]⟩
  law : ∀ (g : Py (PlanState V P) → ℚ) (L : ℕ), d ≤ L → avg N L (fun t => g (prop x t).1) = ∑ f ∈ moveSet G x.plan, u * r f.1 * g (x.flip ⟨[f]⟩)

/-- The chain is in a plan that can be reached. -/
def InClass (G : Graph V) (S : Finset (V → Option P)) (x : PlanState V P) : Prop := x.plan.Coherent ∧ x.plan.Covers G.nodes ∧ x.plan.mapping.get? ∈ S

/-- the sum of the rates of the allowed moves -/
def flipWeight (G : Graph V) (W : (V → Option P) → Bool) (r : (V → Option P) → V → ℚ) (m : V → Option P) : ℚ := ∑ x ∈ allowedMoves G m W, r m x.1

/-- the rate of the moves from `m` to `m'` -/
def flipRate [DecidableEq (V → Option P)] (G : Graph V) (W : (V → Option P) → Bool) (r : (V → Option P) → V → ℚ) (m m' : V → Option P) : ℚ :=
  ∑ x ∈ (allowedMoves G m W).filter (fun x => moved m x.1 x.2 = m'), r m x.1

/-- the transition probabilities -/
def flipKernel [DecidableEq (V → Option P)] (G : Graph V) (W : (V → Option P) → Bool) (r : (V → Option P) → V → ℚ) (m m' : V → Option P) : ℚ :=
  flipRate G W r m m' / flipWeight G W r m

/-! ### The plans that can be reached -/

section plans
variable {G : Graph V} {W : (V → Option P) → Bool} {a : Assignment V P} {S : Finset (V → Option P)}

theorem moved_allowed {m : V → Option P} {x : V × Option P} (hx : x ∈ allowedMoves G m W) : FlipMove G W m (moved m x.1 x.2) := by
  obtain ⟨y, hy, rfl⟩ := Finset.mem_image.1 hx
  exact ⟨y, hy, rfl⟩

theorem FlipSetting.closed (hs : FlipSetting G W a S) {m m' : V → Option P} (hm : m ∈ S) (h : FlipMove G W m m') : m' ∈ S :=
  (hs.mem m').2 (((hs.mem m).1 hm).tail h)

theorem FlipSetting.all_valid (hs : FlipSetting G W a S) {m : V → Option P} (hm : m ∈ S) : W m = true := by
  have := (hs.mem m).1 hm
  cases this with
  | refl => exact hs.valid
  | tail _ h =>
    obtain ⟨x, hx, rfl⟩ := h
    exact (Finset.mem_filter.1 hx).2

/-- a move can be undone, by moving the same node -/
theorem FlipSetting.undo (hs : FlipSetting G W a S) {m : V → Option P} (hm : m ∈ S) {v u : V} (hvu : (v, u) ∈ allowedPairs G m W) :
    ∃ w, w ≠ v ∧ G.Adj v w ∧ m w = m v ∧ (v, w) ∈ allowedPairs G (moved m v (m u)) W ∧ moved (moved m v (m u)) v (moved m v (m u) w) = m := by
  obtain ⟨w, hwv, hw, hmw⟩ := hs.back m hm _ hvu
  exact ⟨w, hwv, hw, hmw, allowed_back hs.wf (hs.all_valid hm) (Finset.mem_filter.1 hvu).1 hwv hw hmw⟩

theorem FlipSetting.symm (hs : FlipSetting G W a S) {m m' : V → Option P} (hm : m ∈ S) (h : FlipMove G W m m') : FlipMove G W m' m := by
  obtain ⟨⟨v, u⟩, hx, rfl⟩ := h
  obtain ⟨w, -, -, -, h1, h2⟩ := hs.undo hm hx
  exact ⟨(v, w), h1, h2⟩

theorem FlipSetting.has_move (hs : FlipSetting G W a S) {m : V → Option P} (hm : m ∈ S) : (allowedPairs G m W).Nonempty := by
  have := (hs.mem m).1 hm
  cases this with
  | refl => exact hs.moves
  | tail h1 h =>
    obtain ⟨x, hx, -⟩ := hs.symm ((hs.mem _).2 h1) h
    exact ⟨x, hx⟩

theorem FlipSetting.reach_back (hs : FlipSetting G W a S) {m : V → Option P} (hm : m ∈ S) : FlipReach G W m a.mapping.get? := by
  have := (hs.mem m).1 hm
  clear hm
  induction this with
  | refl => exact .refl
  | tail h1 h ih => exact .head (hs.symm ((hs.mem _).2 h1) h) ih

theorem FlipSetting.reach (hs : FlipSetting G W a S) {m m' : V → Option P} (hm : m ∈ S) (hm' : m' ∈ S) : FlipReach G W m m' :=
  (hs.reach_back hm).trans ((hs.mem m').1 hm')

theorem FlipSetting.initial (hs : FlipSetting G W a S) : a.mapping.get? ∈ S := (hs.mem _).2 .refl

/-- the plans that can be reached are finitely many -/
theorem exists_flipClass (G : Graph V) (hG : G.WF) (W : (V → Option P) → Bool) (m0 : V → Option P) : ∃ S : Finset (V → Option P), ∀ m, m ∈ S ↔ FlipReach G W m0 m := by
  classical
  let ext : (∀ v ∈ G.nodes, Option P) → V → Option P := fun f v => if h : v ∈ G.nodes then f v h else m0 v
  have hsub : ∀ m, FlipReach G W m0 m → (∀ v, v ∉ G.nodes → m v = m0 v) ∧ ∀ v ∈ G.nodes, m v ∈ G.nodes.image m0 := by
    intro m hm
    induction hm with
    | refl => exact ⟨fun _ _ => rfl, fun v hv => Finset.mem_image_of_mem _ hv⟩
    | tail _ h ih =>
      obtain ⟨⟨v, u⟩, hx, rfl⟩ := h
      have hadj := ((mem_cutPairs hG).1 (Finset.mem_filter.1 hx).1).1
      have hmem := hG.mem_of_adj hadj
      constructor
      · intro y hy
        unfold moved
        rw [if_neg (fun e : y = v => hy (by rw [e]; exact hmem.1))]
        exact ih.1 y hy
      · intro y hy
        unfold moved
        split_ifs
        · exact ih.2 u hmem.2
        · exact ih.2 y hy
  refine ⟨((G.nodes.pi (fun _ => G.nodes.image m0)).image ext).filter (FlipReach G W m0), fun m => ?_⟩
  rw [Finset.mem_filter]
  refine ⟨fun h => h.2, fun h => ⟨?_, h⟩⟩
  obtain ⟨h1, h2⟩ := hsub m h
  refine Finset.mem_image.2 ⟨fun v _ => m v, Finset.mem_pi.2 h2, ?_⟩
  funext v
  show (if h : v ∈ G.nodes then m v else m0 v) = m v
  split_ifs with hv
  · rfl
  · exact (h1 v hv).symm

/-- If the constraints require that each of the labels is that of a nonempty connected district, a node that may be moved has another neighbour in its
district. -/
theorem back_of_contiguous (hG : G.WF) (labels : Finset P) (hW : ∀ m, W m = true → ∀ p ∈ labels, ConnectedOn G (G.nodes.filter (fun v => m v = some p)))
    {m : V → Option P} (hm : W m = true) (hlab : ∀ v ∈ G.nodes, ∃ p ∈ labels, m v = some p) :
    ∀ x ∈ allowedPairs G m W, ∃ w, w ≠ x.1 ∧ G.Adj x.1 w ∧ m w = m x.1 := by
  rintro ⟨v, u⟩ hx
  obtain ⟨h1, h2⟩ := Finset.mem_filter.1 hx
  obtain ⟨hadj, hne⟩ := (mem_cutPairs hG).1 h1
  have hv := (hG.mem_of_adj hadj).1
  obtain ⟨p, hp, hvp⟩ := hlab v hv
  obtain ⟨⟨y, hy⟩, -⟩ := hW _ h2 p hp
  obtain ⟨hyn, hyp⟩ := Finset.mem_filter.1 hy
  have hyv : y ≠ v := by
    rintro rfl
    dsimp only at hyp
    unfold moved at hyp
    rw [if_pos rfl] at hyp
    exact hne (hvp.trans hyp.symm)
  have hyp' : m y = some p := by
    dsimp only at hyp
    unfold moved at hyp
    rwa [if_neg hyv] at hyp
  have hreach := (hW m hm p hp).2 v (Finset.mem_filter.2 ⟨hv, hvp⟩) y (Finset.mem_filter.2 ⟨hyn, hyp'⟩)
  obtain ⟨w, hw1, hw2⟩ : ∃ w, w ≠ v ∧ G.Adj v w ∧ m w = some p := by
    have hstep : ∀ z, ReachIn G (G.nodes.filter (fun v => m v = some p)) v z → z = v ∨ ∃ w, w ≠ v ∧ Within G (G.nodes.filter (fun v => m v = some p)) v w := by
      intro z hz
      induction hz with
      | refl => exact .inl rfl
      | @tail b c _ h ih =>
        rcases ih with rfl | ih
        · by_cases hc : c = b
          · exact .inl hc
          · exact .inr ⟨c, hc, h⟩
        · exact .inr ih
    rcases hstep y hreach with h | ⟨w, hwv, hw⟩
    · exact absurd h hyv
    · exact ⟨w, hwv, hw.1, (Finset.mem_filter.1 hw.2.2).2⟩
  exact ⟨w, hw1, hw2.1, hw2.2.trans hvp.symm⟩

end plans

/-! ### One round -/

section round
variable {G : Graph V} {W : (V → Option P) → Bool} {a : Assignment V P} {S : Finset (V → Option P)} {N d : ℕ}
  {prop : PlanState V P → M Tape (PlanState V P)} {x0 : PlanState V P} {steps : ℤ} {cs : List (Constraint Tape (PlanState V P))}

/-- the constraints together are the condition `W` on the plan -/
def Decides (W : (V → Option P) → Bool) (cs : List (Constraint Tape (PlanState V P))) : Prop :=
  ∀ (x : PlanState V P) t, validator x cs t = (.ok (W x.plan.mapping.get?), t)

/-- what a round of the loop makes of the proposed plan -/
def sieve (W : (V → Option P) → Bool) : Py (PlanState V P) → Py (Option (PlanState V P))
  | .ok q => .ok (if W q.plan.mapping.get? then some q else none)
  | .error e => .error e

theorem wasRefused_nonneg {R : Type} (r : Py (Option R)) : 0 ≤ wasRefused r := by
  unfold wasRefused
  split <;> norm_num

theorem oneTry_sieve (hcs : Decides W cs) (x : PlanState V P) (t : Tape) :
    (oneTry (flipChain prop alwaysAccept x0 steps) cs x t).1 = sieve W (prop x t).1 := by
  show (M.bind (prop x) _ t).1 = _
  unfold M.bind
  rcases prop x t with ⟨r, s⟩
  cases r with
  | error e => rfl
  | ok q =>
    show (M.bind (validator q cs) _ s).1 = _
    unfold M.bind
    rw [hcs q s]
    simp only [sieve]
    cases W q.plan.mapping.get? <;> rfl

theorem draws_oneTry (hcs : Decides W cs) {x : PlanState V P} (h : Draws d (prop x)) : Draws d (oneTry (flipChain prop alwaysAccept x0 steps) cs x) := by
  unfold oneTry
  refine h.bind (j := 0) (fun q => ?_)
  refine .done (.ok (if W q.plan.mapping.get? then some q else none)) (fun t => ?_)
  show M.bind (validator q cs) _ t = _
  unfold M.bind
  rw [hcs q t]
  cases W q.plan.mapping.get? <;> rfl

theorem plan_flip (hG : G.WF) {x : PlanState V P} (ha : x.plan.Coherent) (hcov : x.plan.Covers G.nodes) {f : V × P} (hf : f ∈ moveSet G x.plan) :
    ∃ b, x.flip ⟨[f]⟩ = .ok ⟨b, some x.plan⟩ ∧ b.mapping.get? = moved x.plan.mapping.get? f.1 (some f.2) ∧ b.Coherent ∧ b.Covers G.nodes := by
  have hcan := (mem_moveSet hG hcov).1 hf
  obtain ⟨b, hb, hm⟩ := flip_can hG ha hcov hcan
  refine ⟨b, ?_, funext hm, (flip_ok ha (one_wf f.1 f.2) hb).1, ?_⟩
  · unfold PlanState.flip
    rw [hb]
    rfl
  · intro y
    rw [← hcov y, Dict.mem_keys_iff, Dict.mem_keys_iff, hm y]
    unfold moved
    obtain ⟨⟨p, hp, -⟩, -⟩ := hcan
    by_cases hy : y = f.1
    · rw [if_pos hy, hy, hp]
      simp
    · rw [if_neg hy]

theorem mem_moves_iff (hG : G.WF) {x : PlanState V P} (hcov : x.plan.Covers G.nodes) {f : V × P} :
    (f.1, some f.2) ∈ allowedMoves G x.plan.mapping.get? W ↔ f ∈ moveSet G x.plan ∧ W (moved x.plan.mapping.get? f.1 (some f.2)) = true := by
  rw [mem_allowedMoves hG hcov, mem_moveSet hG hcov]
  constructor
  · rintro ⟨q, hq, h1, h2⟩
    cases Option.some.inj hq
    exact ⟨h1, h2⟩
  · rintro ⟨h1, h2⟩
    exact ⟨f.2, rfl, h1, h2⟩

/-- a sum over the allowed moves, as labels -/
theorem sum_moves (hG : G.WF) {x : PlanState V P} (hcov : x.plan.Covers G.nodes) (φ : V × Option P → ℚ) :
    ∑ y ∈ allowedMoves G x.plan.mapping.get? W, φ y =
      ∑ f ∈ (moveSet G x.plan).filter (fun f => W (moved x.plan.mapping.get? f.1 (some f.2)) = true), φ (f.1, some f.2) := by
  symm
  refine Finset.sum_bij (fun f _ => (f.1, some f.2)) ?_ ?_ ?_ ?_
  · intro f hf
    exact (mem_moves_iff hG hcov).2 (Finset.mem_filter.1 hf)
  · rintro ⟨v, p⟩ - ⟨v', p'⟩ - h
    simp only [Prod.mk.injEq, Option.some.injEq] at h
    exact Prod.ext h.1 h.2
  · rintro ⟨v, o⟩ hy
    obtain ⟨q, rfl, -⟩ := (mem_allowedMoves hG hcov).1 hy
    exact ⟨(v, q), Finset.mem_filter.2 ((mem_moves_iff hG hcov).1 hy), rfl⟩
  · intro f _; rfl

variable [DecidableEq (V → Option P)]

/-- One round of the loop, for every proposal with a law of this kind. -/
theorem tryLaw_flips (hs : FlipSetting G W a S) (hcs : Decides W cs) (hN : 0 < N) {u : (V → Option P) → ℚ} {r : (V → Option P) → V → ℚ}
    (hlaw : ∀ x : PlanState V P, InClass G S x → FlipLaw N d G prop x (u x.plan.mapping.get?) (r x.plan.mapping.get?)) :
    TryLaw N d (flipChain prop alwaysAccept x0 steps) cs (InClass G S) (fun x => x.plan.mapping.get?) S
      (fun m m' => u m * flipRate G W r m m') (fun m => 1 - u m * flipWeight G W r m) where
  erase := fun _ _ => rfl
  draws := fun x hx => draws_oneTry hcs (hlaw x hx).draws
  noStop := by
    intro x hx t
    obtain ⟨f, hf, he⟩ := (hlaw x hx).total t
    obtain ⟨b, hb, hm, hc, hcov⟩ := plan_flip hs.wf hx.1 hx.2.1 hf
    rw [oneTry_sieve hcs, he, hb]
    simp [sieve]
  good := by
    intro x hx t y hy
    obtain ⟨f, hf, he⟩ := (hlaw x hx).total t
    obtain ⟨b, hb, hm, hc, hcov⟩ := plan_flip hs.wf hx.1 hx.2.1 hf
    rw [oneTry_sieve hcs, he, hb] at hy
    simp only [sieve, Except.ok.injEq] at hy
    split_ifs at hy with hW
    cases hy
    refine ⟨hc, hcov, hs.closed hx.2.2 ?_⟩
    rw [hm] at hW ⊢
    exact moved_allowed (x := (f.1, some f.2)) ((mem_moves_iff hs.wf hx.2.1).2 ⟨hf, hW⟩)
  mem := fun x hx => hx.2.2
  law := by
    intro x hx m' _
    have e : ∀ t, triedTo (fun x : PlanState V P => x.plan.mapping.get?) m' (oneTry (flipChain prop alwaysAccept x0 steps) cs x t).1 =
        (fun q => triedTo (fun x : PlanState V P => x.plan.mapping.get?) m' (sieve W q)) (prop x t).1 := fun t => by rw [oneTry_sieve hcs]
    rw [avg_congr N d e, (hlaw x hx).law (fun q => triedTo (fun x : PlanState V P => x.plan.mapping.get?) m' (sieve W q)) d le_rfl]
    unfold flipRate
    rw [Finset.sum_filter, sum_moves hs.wf hx.2.1, Finset.sum_filter, Finset.mul_sum]
    refine Finset.sum_congr rfl (fun f hf => ?_)
    obtain ⟨b, hb, hm, -, -⟩ := plan_flip hs.wf hx.1 hx.2.1 hf
    rw [hb]
    simp only [sieve, hm]
    by_cases hW : W (moved x.plan.mapping.get? f.1 (some f.2)) = true
    · rw [if_pos hW, if_pos hW]
      simp only [triedTo, hm]
      by_cases hmm : moved x.plan.mapping.get? f.1 (some f.2) = m'
      · rw [if_pos hmm, if_pos hmm, mul_one]
      · rw [if_neg hmm, if_neg hmm, mul_zero, mul_zero]
    · rw [if_neg hW, if_neg hW]
      simp only [triedTo, mul_zero]
  refuse := by
    intro x hx
    have e : ∀ t, wasRefused (oneTry (flipChain prop alwaysAccept x0 steps) cs x t).1 = (fun q => wasRefused (sieve W q)) (prop x t).1 :=
      fun t => by rw [oneTry_sieve hcs]
    rw [avg_congr N d e, (hlaw x hx).law (fun q => wasRefused (sieve W q)) d le_rfl]
    have h1 := (hlaw x hx).law (fun _ => 1) d le_rfl
    rw [avg_const hN] at h1
    rw [h1]
    unfold flipWeight
    rw [sum_moves hs.wf hx.2.1, Finset.sum_filter, Finset.mul_sum, ← Finset.sum_sub_distrib]
    refine Finset.sum_congr rfl (fun f hf => ?_)
    obtain ⟨b, hb, hm, -, -⟩ := plan_flip hs.wf hx.1 hx.2.1 hf
    rw [hb]
    simp only [sieve, hm]
    by_cases hW : W (moved x.plan.mapping.get? f.1 (some f.2)) = true
    · rw [if_pos hW, if_pos hW]
      simp only [wasRefused]
      ring
    · rw [if_neg hW, if_neg hW]
      simp only [wasRefused]
      ring

end round

/-! ### The Markov chain of the plans -/

section kernel
variable {G : Graph V} {W : (V → Option P) → Bool} {a : Assignment V P} {S : Finset (V → Option P)} [DecidableEq (V → Option P)]
  {r : (V → Option P) → V → ℚ}

/-- What has to be known about the rates: they are positive, and do not change when the node is moved. -/
structure Rates (G : Graph V) (W : (V → Option P) → Bool) (S : Finset (V → Option P)) (r : (V → Option P) → V → ℚ) : Prop where
  pos : ∀ m ∈ S, ∀ v u, (v, u) ∈ allowedPairs G m W → 0 < r m v
  symm : ∀ m ∈ S, ∀ v u w, (v, u) ∈ allowedPairs G m W → w ≠ v → G.Adj v w → m w = m v → r (moved m v (m u)) v = r m v

/-- every plan that can be reached is the plan of an assignment -/
theorem FlipSetting.represent (hs : FlipSetting G W a S) {m : V → Option P} (hm : m ∈ S) : ∃ b : Assignment V P, b.mapping.get? = m ∧ InClass G S ⟨b, none⟩ := by
  have := (hs.mem m).1 hm
  clear hm
  induction this with
  | refl => exact ⟨a, rfl, hs.coherent, hs.covers, hs.initial⟩
  | @tail m m' h1 h ih =>
    obtain ⟨b, rfl, hb⟩ := ih
    obtain ⟨⟨v, u⟩, hx, rfl⟩ := id h
    have hmem : (v, b.mapping.get? u) ∈ allowedMoves G b.mapping.get? W := Finset.mem_image_of_mem (fun x => (x.1, b.mapping.get? x.2)) hx
    obtain ⟨q, hq, hcan, -⟩ := (mem_allowedMoves hs.wf hb.2.1).1 hmem
    obtain ⟨b', -, hm', hc, hcov⟩ := plan_flip (x := ⟨b, none⟩) hs.wf hb.1 hb.2.1 (f := (v, q)) ((mem_moveSet hs.wf hb.2.1).2 hcan)
    refine ⟨b', ?_, hc, hcov, ?_⟩
    · rw [hm', ← hq]
    · show b'.mapping.get? ∈ S
      rw [hm', ← hq]
      exact hs.closed hb.2.2 h

theorem flipWeight_pos (hs : FlipSetting G W a S) (hr : Rates G W S r) {m : V → Option P} (hm : m ∈ S) : 0 < flipWeight G W r m := by
  obtain ⟨⟨v, u⟩, hx⟩ := hs.has_move hm
  refine Finset.sum_pos (fun x hx => ?_) ⟨_, Finset.mem_image_of_mem _ hx⟩
  obtain ⟨⟨v', u'⟩, hy, rfl⟩ := Finset.mem_image.1 hx
  exact hr.pos m hm v' u' hy

theorem flipRate_nonneg (hr : Rates G W S r) {m m' : V → Option P} (hm : m ∈ S) : 0 ≤ flipRate G W r m m' := by
  refine Finset.sum_nonneg (fun x hx => ?_)
  obtain ⟨⟨v', u'⟩, hy, rfl⟩ := Finset.mem_image.1 (Finset.mem_filter.1 hx).1
  exact (hr.pos m hm v' u' hy).le

/-- the rate of a move -/
theorem flipRate_move (hG : G.WF) {m : V → Option P} {v u : V} (h : (v, u) ∈ allowedPairs G m W) : flipRate G W r m (moved m v (m u)) = r m v := by
  unfold flipRate
  have : (allowedMoves G m W).filter (fun x => moved m x.1 x.2 = moved m v (m u)) = {(v, m u)} := by
    ext ⟨v', o⟩
    rw [Finset.mem_filter, Finset.mem_singleton]
    constructor
    · rintro ⟨h1, h2⟩
      obtain ⟨⟨v'', u''⟩, hy, he⟩ := Finset.mem_image.1 h1
      cases he
      obtain ⟨e1, e2⟩ := moved_inj ((mem_cutPairs hG).1 (Finset.mem_filter.1 hy).1).2 ((mem_cutPairs hG).1 (Finset.mem_filter.1 h).1).2 h2
      exact Prod.ext e1 e2
    · intro he
      cases he
      exact ⟨Finset.mem_image_of_mem (fun x => (x.1, m x.2)) h, rfl⟩
  rw [this, Finset.sum_singleton]

theorem flipRate_none {m m' : V → Option P} (h : ¬ FlipMove G W m m') : flipRate G W r m m' = 0 := by
  unfold flipRate
  refine Finset.sum_eq_zero (fun x hx => ?_)
  obtain ⟨h1, h2⟩ := Finset.mem_filter.1 hx
  exact absurd (h2 ▸ moved_allowed h1) h

theorem flipRate_symm (hs : FlipSetting G W a S) (hr : Rates G W S r) {m m' : V → Option P} (hm : m ∈ S) (hm' : m' ∈ S) :
    flipRate G W r m m' = flipRate G W r m' m := by
  by_cases h : FlipMove G W m m'
  · obtain ⟨⟨v, u⟩, hx, rfl⟩ := h
    obtain ⟨w, hwv, hw, hmw, h1, h2⟩ := hs.undo hm hx
    have e := flipRate_move (r := r) hs.wf h1
    rw [h2] at e
    rw [flipRate_move hs.wf hx, e, hr.symm m hm v u w hx hwv hw hmw]
  · rw [flipRate_none h, flipRate_none (fun h' => h (hs.symm hm' h'))]

theorem flipKernel_isKernel (hs : FlipSetting G W a S) (hr : Rates G W S r) : IsKernel S (flipKernel G W r) where
  nonneg := fun m hm m' _ => div_nonneg (flipRate_nonneg hr hm) (flipWeight_pos hs hr hm).le
  sum := by
    intro m hm
    unfold flipKernel
    rw [← Finset.sum_div, div_eq_one_iff_eq (flipWeight_pos hs hr hm).ne']
    unfold flipRate flipWeight
    exact Finset.sum_fiberwise_of_maps_to (fun x hx => hs.closed hm (moved_allowed hx)) (fun x => r m x.1)

/-- the share of a plan in the weights -/
def flipShare (G : Graph V) (W : (V → Option P) → Bool) (S : Finset (V → Option P)) (r : (V → Option P) → V → ℚ) (m : V → Option P) : ℚ :=
  flipWeight G W r m / ∑ m' ∈ S, flipWeight G W r m'

theorem flipShare_invariant (hs : FlipSetting G W a S) (hr : Rates G W S r) : Invariant S (flipKernel G W r) (flipShare G W S r) := by
  have htot : 0 < ∑ m ∈ S, flipWeight G W r m := Finset.sum_pos (fun m hm => flipWeight_pos hs hr hm) ⟨_, hs.initial⟩
  refine Invariant.of_balance (flipKernel_isKernel hs hr) (fun m hm => div_nonneg (flipWeight_pos hs hr hm).le htot.le) ?_ ?_
  · unfold flipShare
    rw [← Finset.sum_div, div_self htot.ne']
  · intro m hm m' hm'
    have h1 := flipWeight_pos hs hr hm
    have h2 := flipWeight_pos hs hr hm'
    unfold flipShare flipKernel
    rw [flipRate_symm hs hr hm' hm]
    rw [div_mul_div_comm, div_mul_div_comm, mul_comm (∑ m ∈ S, flipWeight G W r m), mul_comm (∑ m ∈ S, flipWeight G W r m),
      mul_div_mul_left _ _ h1.ne', mul_div_mul_left _ _ h2.ne']

theorem flipKernel_connects (hs : FlipSetting G W a S) (hr : Rates G W S r) : Connects S (flipKernel G W r) := by
  intro m hm m' hm'
  have h := hs.reach hm hm'
  clear hm'
  induction h with
  | refl => exact .refl
  | @tail b c h1 h ih =>
    have hb : b ∈ S := (hs.mem b).2 (((hs.mem m).1 hm).trans h1)
    refine ih.tail ⟨hb, hs.closed hb h, ?_⟩
    obtain ⟨⟨v, u⟩, hx, rfl⟩ := h
    unfold flipKernel
    rw [flipRate_move hs.wf hx]
    exact div_pos (hr.pos b hb v u hx) (flipWeight_pos hs hr hb)

variable {N d : ℕ} {prop : PlanState V P → M Tape (PlanState V P)} {x0 : PlanState V P} {cs : List (Constraint Tape (PlanState V P))}
  {u : (V → Option P) → ℚ}

/-- The mean of a function of the plans of a run, 0 for runs that are not finished with `f` proposals in each step, compared with that of the Markov chain. -/
theorem flips_sandwich (hs : FlipSetting G W a S) (hr : Rates G W S r) (hcs : Decides W cs) (hN : 0 < N) (hu : ∀ m ∈ S, 0 < u m)
    (hlaw : ∀ x : PlanState V P, InClass G S x → FlipLaw N d G prop x (u x.plan.mapping.get?) (r x.plan.mapping.get?))
    {c : ℚ} (hc : ∀ m ∈ S, 1 - u m * flipWeight G W r m ≤ c) (hc1 : c < 1)
    {b : PlanState V P} (hb : InClass G S b) (n : ℕ) (ch : Chain Tape (PlanState V P)) (hch : ch.isValid = cs) (f body : ℕ) (hf : 0 < f) (hbody : n + 1 < body)
    (L : ℕ) (hL : n * (f * d) ≤ L) {F : List (V → Option P) → ℚ} (hF : ∀ l, 0 ≤ F l) :
    avg N L (fun t => listValue (fun x => x.plan.mapping.get?) F (ch.list (flipChain prop alwaysAccept b (n + 1 : ℕ)) f body t)) ≤
        pathMean S (flipKernel G W r) n (fun l => F (b.plan.mapping.get? :: l)) b.plan.mapping.get? ∧
      (1 - c ^ f) ^ n * pathMean S (flipKernel G W r) n (fun l => F (b.plan.mapping.get? :: l)) b.plan.mapping.get? ≤
        avg N L (fun t => listValue (fun x => x.plan.mapping.get?) F (ch.list (flipChain prop alwaysAccept b (n + 1 : ℕ)) f body t)) := by
  have hT := tryLaw_flips (x0 := b) (steps := ((n + 1 : ℕ) : ℤ)) hs hcs hN hlaw
  rw [hT.list hN n rfl hb ch hch f body hf hbody F L hL]
  have hρ0 : ∀ m ∈ S, 0 ≤ 1 - u m * flipWeight G W r m := by
    intro m hm
    obtain ⟨b', rfl, hb'⟩ := hs.represent hm
    have := hT.refuse _ hb'
    dsimp only at this
    rw [← this]
    unfold avg
    exact div_nonneg (Finset.sum_nonneg (fun t _ => wasRefused_nonneg _)) (by positivity)
  have hρ1 : ∀ m ∈ S, 1 - u m * flipWeight G W r m < 1 := fun m hm => (hc m hm).trans_lt hc1
  have hc0 : 0 ≤ c := (hρ0 _ hs.initial).trans (hc _ hs.initial)
  have hK := flipKernel_isKernel hs hr
  have he : ∀ m ∈ S, ∀ m', triedKernel (fun m m' => u m * flipRate G W r m m') (fun m => 1 - u m * flipWeight G W r m) f m m' =
      (1 - (1 - u m * flipWeight G W r m) ^ f) * flipKernel G W r m m' := by
    intro m hm m'
    rw [triedKernel_eq (ρ := fun m => 1 - u m * flipWeight G W r m) (hρ1 m hm)]
    unfold flipKernel
    rw [sub_sub_cancel, mul_div_mul_left _ _ (hu m hm).ne']
  have hpow : ∀ m ∈ S, (1 - u m * flipWeight G W r m) ^ f ≤ c ^ f := fun m hm => pow_le_pow_left₀ (hρ0 m hm) (hc m hm) f
  have hpow1 : c ^ f ≤ 1 := pow_le_one₀ hc0 hc1.le
  have := pathMean_dominated (S := S) (K := flipKernel G W r) (c := 1 - c ^ f)
    (K' := triedKernel (fun m m' => u m * flipRate G W r m m') (fun m => 1 - u m * flipWeight G W r m) f) (by linarith)
    (fun m hm m' hm' => by
      rw [he m hm m']
      have := hpow m hm
      exact mul_nonneg (by linarith) (hK.nonneg m hm m' hm'))
    (fun m hm m' hm' => by
      rw [he m hm m']
      have h1 := pow_nonneg (hρ0 m hm) f
      have h2 := hK.nonneg m hm m' hm'
      calc _ ≤ 1 * flipKernel G W r m m' := mul_le_mul_of_nonneg_right (by linarith) h2
        _ = _ := one_mul _)
    (fun m hm m' hm' => by
      rw [he m hm m']
      have h1 := hpow m hm
      exact mul_le_mul_of_nonneg_right (by linarith) (hK.nonneg m hm m' hm')) n
    (F := fun l => F (b.plan.mapping.get? :: l)) (fun l => hF _) b.plan.mapping.get? hb.2.2
  exact ⟨this.2.1, this.2.2⟩

/-- no plan that can be reached refuses nearly everything -/
theorem exists_refusal_bound (hs : FlipSetting G W a S) (hr : Rates G W S r) (hu : ∀ m ∈ S, 0 < u m) :
    ∃ c, 0 ≤ c ∧ c < 1 ∧ ∀ m ∈ S, 1 - u m * flipWeight G W r m ≤ c := by
  obtain ⟨m, hm, hmax⟩ := S.exists_max_image (fun m => 1 - u m * flipWeight G W r m) ⟨_, hs.initial⟩
  refine ⟨max 0 (1 - u m * flipWeight G W r m), le_max_left _ _, max_lt one_pos ?_, fun m' hm' => (hmax m' hm').trans (le_max_right _ _)⟩
  have := mul_pos (hu m hm) (flipWeight_pos hs hr hm)
  linarith

/-- the probability of a list of plans -/
theorem flips_run (hs : FlipSetting G W a S) (hr : Rates G W S r) (hcs : Decides W cs) (hN : 0 < N) (hu : ∀ m ∈ S, 0 < u m)
    (hlaw : ∀ x : PlanState V P, InClass G S x → FlipLaw N d G prop x (u x.plan.mapping.get?) (r x.plan.mapping.get?))
    {c : ℚ} (hc : ∀ m ∈ S, 1 - u m * flipWeight G W r m ≤ c) (hc1 : c < 1) (p : List (V → Option P)) (hp : ∀ m ∈ p, m ∈ S)
    (ch : Chain Tape (PlanState V P)) (hch : ch.isValid = cs) (f body : ℕ) (hf : 0 < f) (hbody : p.length + 1 < body) (L : ℕ) (hL : p.length * (f * d) ≤ L) :
    avg N L (fun t => listValue (fun x => x.plan.mapping.get?) (fun l => if l = a.mapping.get? :: p then 1 else 0)
        (ch.list (flipChain prop alwaysAccept ⟨a, none⟩ (p.length + 1 : ℕ)) f body t)) ≤ pathProb (flipKernel G W r) a.mapping.get? p ∧
      (1 - c ^ f) ^ p.length * pathProb (flipKernel G W r) a.mapping.get? p ≤
        avg N L (fun t => listValue (fun x => x.plan.mapping.get?) (fun l => if l = a.mapping.get? :: p then 1 else 0)
          (ch.list (flipChain prop alwaysAccept ⟨a, none⟩ (p.length + 1 : ℕ)) f body t)) := by
  have := flips_sandwich hs hr hcs hN hu hlaw hc hc1 (b := ⟨a, none⟩) ⟨hs.coherent, hs.covers, hs.initial⟩ p.length ch hch f body hf hbody L hL
    (F := fun l => if l = a.mapping.get? :: p then 1 else 0) (fun l => by split_ifs <;> norm_num)
  rw [← pathMean_path (S := S) p hp, pathMean_congr p.length (g := fun l => if a.mapping.get? :: l = a.mapping.get? :: p then 1 else 0)
    (fun l _ => by simp) a.mapping.get?]
  exact this

theorem path_certain (hs : FlipSetting G W a S) (hr : Rates G W S r) (n : ℕ) (m : V → Option P) (hm : m ∈ S) {F : List (V → Option P) → ℚ}
    (hF : ∀ l, l.length = n → (∀ m' ∈ l, m' ∈ S) → F l = 1) : pathMean S (flipKernel G W r) n F m = 1 := by
  have hK := flipKernel_isKernel hs hr
  have e := pathMean_const hK 1 n m hm
  have h1 := pathMean_mono hK (f := F) (g := fun _ => 1) n (fun l hl hS => (hF l hl hS).le) m hm
  have h2 := pathMean_mono hK (f := fun _ => 1) (g := F) n (fun l hl hS => (hF l hl hS).ge) m hm
  linarith

/-- the probability that the run is finished -/
theorem flips_complete (hs : FlipSetting G W a S) (hr : Rates G W S r) (hcs : Decides W cs) (hN : 0 < N) (hu : ∀ m ∈ S, 0 < u m)
    (hlaw : ∀ x : PlanState V P, InClass G S x → FlipLaw N d G prop x (u x.plan.mapping.get?) (r x.plan.mapping.get?))
    {c : ℚ} (hc : ∀ m ∈ S, 1 - u m * flipWeight G W r m ≤ c) (hc1 : c < 1) (n : ℕ)
    (ch : Chain Tape (PlanState V P)) (hch : ch.isValid = cs) (f body : ℕ) (hf : 0 < f) (hbody : n + 1 < body) (L : ℕ) (hL : n * (f * d) ≤ L) :
    (1 - c ^ f) ^ n ≤ avg N L (fun t => listValue (fun x => x.plan.mapping.get?) (fun l => if (∀ m ∈ l, m ∈ S) ∧ l.length = n + 1 then 1 else 0)
        (ch.list (flipChain prop alwaysAccept ⟨a, none⟩ (n + 1 : ℕ)) f body t)) := by
  have := (flips_sandwich hs hr hcs hN hu hlaw hc hc1 (b := ⟨a, none⟩) ⟨hs.coherent, hs.covers, hs.initial⟩ n ch hch f body hf hbody L hL
    (F := fun l => if (∀ m ∈ l, m ∈ S) ∧ l.length = n + 1 then 1 else 0) (fun l => by split_ifs <;> norm_num)).2
  rw [path_certain hs hr n _ hs.initial (fun l hl hS => ?_), mul_one] at this
  · exact this
  · rw [if_pos]
    refine ⟨fun m hm => ?_, by rw [List.length_cons, hl]⟩
    rcases List.mem_cons.1 hm with rfl | hm
    · exact hs.initial
    · exact hS m hm

/-- the law of large numbers for a run -/
theorem flips_ensemble (hs : FlipSetting G W a S) (hr : Rates G W S r) (score : (V → Option P) → ℚ) :
    ∃ C, 0 ≤ C ∧ ∀ {N d : ℕ} {prop : PlanState V P → M Tape (PlanState V P)} {cs : List (Constraint Tape (PlanState V P))} {u : (V → Option P) → ℚ}, Decides W cs →
      0 < N → (∀ m ∈ S, 0 < u m) →
      (∀ x : PlanState V P, InClass G S x → FlipLaw N d G prop x (u x.plan.mapping.get?) (r x.plan.mapping.get?)) →
      ∀ b : PlanState V P, InClass G S b → ∀ (ch : Chain Tape (PlanState V P)), ch.isValid = cs → ∀ n f body L, 0 < f → n + 1 < body → n * (f * d) ≤ L →
      ∀ ε, 0 < ε → avg N L (fun t => listValue (fun x => x.plan.mapping.get?) (fun l => if ε ≤ |(l.map score).sum / l.length -
            (∑ m ∈ S, flipWeight G W r m * score m) / ∑ m ∈ S, flipWeight G W r m| then 1 else 0)
          (ch.list (flipChain prop alwaysAccept b (n + 1 : ℕ)) f body t)) ≤ C / ((n + 1 : ℕ) * ε ^ 2) := by
  obtain ⟨C, hC, hall⟩ := large_numbers_connected (flipKernel_isKernel hs hr) (flipShare_invariant hs hr) (flipKernel_connects hs hr) score
  refine ⟨C, hC, ?_⟩
  intro N d prop cs u hcs hN hu hlaw b hb ch hch n f body L hf hbody hL ε hε
  obtain ⟨c, hc0, hc1, hc⟩ := exists_refusal_bound hs hr hu
  have hmean : (∑ m ∈ S, flipWeight G W r m * score m) / ∑ m ∈ S, flipWeight G W r m = ∑ m ∈ S, flipShare G W S r m * score m := by
    rw [Finset.sum_div]
    exact Finset.sum_congr rfl (fun m _ => by unfold flipShare; ring)
  rw [hmean]
  exact (flips_sandwich hs hr hcs hN hu hlaw hc hc1 hb n ch hch f body hf hbody L hL
    (F := fun l => if ε ≤ |(l.map score).sum / l.length - ∑ m ∈ S, flipShare G W S r m * score m| then 1 else 0)
    (fun l => by split_ifs <;> norm_num)).1.trans (hall n ε hε _ hb.2.2)

/-- the probability that the run is finished and the average is close to its limit -/
theorem flips_close (hs : FlipSetting G W a S) (hr : Rates G W S r) (hcs : Decides W cs) (hN : 0 < N) (hu : ∀ m ∈ S, 0 < u m)
    (hlaw : ∀ x : PlanState V P, InClass G S x → FlipLaw N d G prop x (u x.plan.mapping.get?) (r x.plan.mapping.get?))
    {c : ℚ} (hc : ∀ m ∈ S, 1 - u m * flipWeight G W r m ≤ c) (hc1 : c < 1) (n : ℕ)
    (ch : Chain Tape (PlanState V P)) (hch : ch.isValid = cs) (f body : ℕ) (hf : 0 < f) (hbody : n + 1 < body) (L : ℕ) (hL : n * (f * d) ≤ L)
    (g : List (V → Option P) → ℚ) (ε : ℚ) :
    (1 - c ^ f) ^ n ≤ avg N L (fun t => listValue (fun x => x.plan.mapping.get?) (fun l => if g l < ε then 1 else 0)
        (ch.list (flipChain prop alwaysAccept ⟨a, none⟩ (n + 1 : ℕ)) f body t)) +
      avg N L (fun t => listValue (fun x => x.plan.mapping.get?) (fun l => if ε ≤ g l then 1 else 0)
        (ch.list (flipChain prop alwaysAccept ⟨a, none⟩ (n + 1 : ℕ)) f body t)) := by
  have := (flips_sandwich hs hr hcs hN hu hlaw hc hc1 (b := ⟨a, none⟩) ⟨hs.coherent, hs.covers, hs.initial⟩ n ch hch f body hf hbody L hL
    (F := fun _ => 1) (fun l => by norm_num)).2
  rw [path_certain hs hr n _ hs.initial (fun l _ _ => rfl), mul_one] at this
  refine this.trans (le_of_eq ?_)
  rw [← avg_add]
  refine avg_congr N L (fun t => ?_)
  rcases ch.list (flipChain prop alwaysAccept ⟨a, none⟩ (n + 1 : ℕ)) f body t with _ | ⟨_ | xs, _, _⟩
  · simp [listValue]
  · simp [listValue]
  · simp only [listValue]
    by_cases h : ε ≤ g (xs.map (fun x => x.plan.mapping.get?))
    · rw [if_pos h, if_neg (not_lt.2 h)]; norm_num
    · rw [if_neg h, if_pos (not_le.1 h)]; norm_num

/-- a flip between two districts changes the size of each by one -/
theorem move_parity (hG : G.WF) {p q : P} (hpq : p ≠ q) {m m' : V → Option P} (hm : ∀ v ∈ G.nodes, m v = some p ∨ m v = some q) (h : FlipMove G W m m') :
    (districtSize G m' p + districtSize G m p) % 2 = 1 ∧ ∀ v ∈ G.nodes, m' v = some p ∨ m' v = some q := by
  obtain ⟨⟨v, u⟩, hx, rfl⟩ := h
  obtain ⟨hadj, hne⟩ := (mem_cutPairs hG).1 (Finset.mem_filter.1 hx).1
  obtain ⟨hv, hu⟩ := hG.mem_of_adj hadj
  dsimp only at hne hv hu ⊢
  constructor
  · unfold districtSize
    rcases hm v hv with h1 | h1
    · have h2 : m u = some q := (hm u hu).resolve_left (fun h => hne (h1.trans h.symm))
      have e : G.nodes.filter (fun x => m x = some p) = insert v (G.nodes.filter (fun x => moved m v (m u) x = some p)) := by
        ext x
        rw [Finset.mem_insert, Finset.mem_filter, Finset.mem_filter]
        unfold moved
        by_cases hxv : x = v
        · simp [hxv, hv, h1]
        · simp [hxv]
      have hnot : v ∉ G.nodes.filter (fun x => moved m v (m u) x = some p) := by
        rw [Finset.mem_filter]
        unfold moved
        rw [if_pos rfl, h2]
        rintro ⟨-, h⟩
        exact hpq (Option.some.inj h).symm
      rw [e, Finset.card_insert_of_notMem hnot]
      omega
    · have h2 : m u = some p := (hm u hu).resolve_right (fun h => hne (h1.trans h.symm))
      have e : G.nodes.filter (fun x => moved m v (m u) x = some p) = insert v (G.nodes.filter (fun x => m x = some p)) := by
        ext x
        rw [Finset.mem_insert, Finset.mem_filter, Finset.mem_filter]
        unfold moved
        by_cases hxv : x = v
        · simp [hxv, hv, h2]
        · simp [hxv]
      have hnot : v ∉ G.nodes.filter (fun x => m x = some p) := by
        rw [Finset.mem_filter, h1]
        rintro ⟨-, h⟩
        exact hpq (Option.some.inj h).symm
      rw [e, Finset.card_insert_of_notMem hnot]
      omega
  · intro x hxn
    unfold moved
    split_ifs
    · exact hm u hu
    · exact hm x hxn

theorem path_parity (hG : G.WF) {p q : P} (hpq : p ≠ q) (n : ℕ) : ∀ (m : V → Option P), (∀ v ∈ G.nodes, m v = some p ∨ m v = some q) →
    ∀ F : List (V → Option P) → ℚ, (∀ l, (∀ i m', (m :: l)[i]? = some m' → (districtSize G m' p + districtSize G m p) % 2 = i % 2) → F l = 0) →
      pathMean S (flipKernel G W r) n F m = 0 := by
  induction n with
  | zero =>
    intro m hm F hF
    refine hF [] (fun i m' h => ?_)
    rcases i with _ | i
    · simp only [List.getElem?_cons_zero, Option.some.injEq] at h
      subst h
      omega
    · simp at h
  | succ n ih =>
    intro m hm F hF
    refine Finset.sum_eq_zero (fun y _ => ?_)
    by_cases h : FlipMove G W m y
    · obtain ⟨h1, h2⟩ := move_parity hG hpq hm h
      rw [ih y h2 _ (fun l hl => hF (y :: l) (fun i m' hi => ?_)), mul_zero]
      rcases i with _ | i
      · simp only [List.getElem?_cons_zero, Option.some.injEq] at hi
        subst hi
        omega
      · rw [List.getElem?_cons_succ] at hi
        have := hl i m' hi
        omega
    · unfold flipKernel
      rw [flipRate_none h, zero_div, zero_mul]

/-- with two districts the size of each is even in every second plan -/
theorem flips_parity (hs : FlipSetting G W a S) (hr : Rates G W S r) (hcs : Decides W cs) (hN : 0 < N) (hu : ∀ m ∈ S, 0 < u m)
    (hlaw : ∀ x : PlanState V P, InClass G S x → FlipLaw N d G prop x (u x.plan.mapping.get?) (r x.plan.mapping.get?))
    {p q : P} (hpq : p ≠ q) (ha : ∀ v ∈ G.nodes, a.mapping.get? v = some p ∨ a.mapping.get? v = some q) (n : ℕ)
    (ch : Chain Tape (PlanState V P)) (hch : ch.isValid = cs) (f body : ℕ) (hf : 0 < f) (hbody : n + 1 < body) (L : ℕ) (hL : n * (f * d) ≤ L)
    (m : V → Option P) (i : ℕ) (hm : (districtSize G m p + districtSize G a.mapping.get? p + i) % 2 = 1) :
    avg N L (fun t => listValue (fun x => x.plan.mapping.get?) (fun l => if l[i]? = some m then 1 else 0)
        (ch.list (flipChain prop alwaysAccept ⟨a, none⟩ (n + 1 : ℕ)) f body t)) = 0 := by
  obtain ⟨c, -, hc1, hc⟩ := exists_refusal_bound hs hr hu
  have h := flips_sandwich hs hr hcs hN hu hlaw hc hc1 (b := ⟨a, none⟩) ⟨hs.coherent, hs.covers, hs.initial⟩ n ch hch f body hf hbody L hL
    (F := fun l => if l[i]? = some m then 1 else 0) (fun l => by split_ifs <;> norm_num)
  rw [path_parity hs.wf hpq n _ ha _ (fun l hl => ?_), mul_zero] at h
  · exact le_antisymm h.1 h.2
  · rw [if_neg]
    intro hi
    have := hl i m hi
    omega

end kernel

/-! ### The two proposals -/

section proposals
variable {G : Graph V} {W : (V → Option P) → Bool} {a : Assignment V P} {S : Finset (V → Option P)} {N : ℕ}

theorem choice_some {α : Type} (N : ℕ) {l : List α} (hl : l ≠ []) (t : Tape) : ∃ x ∈ l, ∃ t', (uniRand N).choice l t = (.ok x, t') := by
  obtain ⟨y, l, rfl⟩ := List.exists_cons_of_ne_nil hl
  exact ⟨_, List.getElem_mem _, _, rfl⟩

theorem slow_flipLaw (hs : FlipSetting G W a S) (hN : 0 < N) (hd : ∀ m ∈ S, (allowedMoves G m (fun _ => true)).card ∣ N) {x : PlanState V P} (hx : InClass G S x) :
    FlipLaw N 1 G (slowMove N G) x (1 / (allowedMoves G x.plan.mapping.get? (fun _ => true)).card) (fun _ => 1) := by
  obtain ⟨⟨v, w⟩, hvw⟩ := hs.has_move hx.2.2
  obtain ⟨q, -, hmem, -, hp, -⟩ := slow_setup (W := W) hs.wf hx.2.1 hN (hd _ hx.2.2) (x := x) rfl hvw
  refine ⟨hp.draws, fun t => ?_, fun g L hL => ?_⟩
  · have he : slowMove N G x = (uniRand N).choice (flipPairs x.plan (cutsOf G x.plan.mapping)) >>= fun f => M.lift (x.flip ⟨[f]⟩) := by
      unfold slowMove slowFlip
      rw [M.bind_assoc']
      rfl
    obtain ⟨f, hf, t', hc⟩ := choice_some N (List.ne_nil_of_mem hmem) t
    refine ⟨f, List.mem_toFinset.2 hf, ?_⟩
    rw [he, M.bind_ok hc]
    rfl
  · rw [hp.law g L hL, ← List.sum_toFinset _ (C57_uniform G hs.wf x.plan hx.2.1).1, length_flipPairs_all hs.wf hx.2.1, Finset.sum_div]
    exact Finset.sum_congr rfl (fun f _ => by ring)

theorem slow_rates : Rates G W S (fun _ _ => 1) := ⟨fun _ _ _ _ _ => one_pos, fun _ _ _ _ _ _ _ _ _ => rfl⟩

theorem slow_weight (m : V → Option P) : flipWeight G W (fun _ _ => 1) m = (allowedMoves G m W).card := by
  unfold flipWeight
  rw [Finset.sum_const, nsmul_eq_mul, mul_one]

theorem slow_pos (hs : FlipSetting G W a S) : ∀ m ∈ S, (0 : ℚ) < 1 / (allowedMoves G m (fun _ => true)).card := by
  intro m hm
  obtain ⟨⟨v, w⟩, hvw⟩ := hs.has_move hm
  have h : (v, w) ∈ allowedPairs G m (fun _ => true) := Finset.mem_filter.2 ⟨(Finset.mem_filter.1 hvw).1, rfl⟩
  have : (0 : ℚ) < (allowedMoves G m (fun _ => true)).card := by exact_mod_cast Finset.card_pos.2 ⟨_, Finset.mem_image_of_mem _ h⟩
  positivity

/-- the rates of `slow_reversible_propose_bi` -/
def biRate (G : Graph V) (m : V → Option P) (v : V) : ℚ := 1 / (otherParts G m v).card

theorem bi_flipLaw (hs : FlipSetting G W a S) (hN : 0 < N) (hd : ∀ m ∈ S, Divides N G m) (han : ∀ m ∈ S, Anchored G m) {x : PlanState V P} (hx : InClass G S x) :
    FlipLaw N 2 G (biMove N G) x (1 / (boundaryNodes G x.plan.mapping.get?).card) (biRate G x.plan.mapping.get?) := by
  obtain ⟨⟨v0, w0⟩, hvw⟩ := hs.has_move hx.2.2
  have hne : (boundaryNodes G x.plan.mapping.get?).Nonempty := ⟨v0, Finset.mem_image_of_mem Prod.fst (Finset.mem_filter.1 hvw).1⟩
  refine ⟨draws_biMove N G x, fun t => ?_, fun g L hL => ?_⟩
  · have hne' : iter (cutEnds (cutsOf G x.plan.mapping)) ≠ [] := by
      rw [cutEnds_eq hs.wf, Ne, ← List.length_eq_zero_iff, length_iter]
      exact (Finset.card_pos.2 hne).ne'
    obtain ⟨v, hv, t', hc⟩ := choice_some N hne' t
    rw [cutEnds_eq hs.wf, mem_iter] at hv
    obtain ⟨u, hu, hvu⟩ := (mem_boundaryNodes hs.wf).1 hv
    obtain ⟨own, hown⟩ := covers_adj hs.wf hx.2.1 _ _ hu
    obtain ⟨q, hq⟩ := covers_adj hs.wf hx.2.1 _ _ hu.symm
    obtain ⟨w, hw, hwv⟩ := han _ hx.2.2 v hv
    have hne2 : (nbrLabels G x.plan v).erase own ≠ [] := by
      refine List.ne_nil_of_mem (a := q) ((mem_otherLabels hs.wf hown).2 ⟨⟨own, hown, ?_⟩, u, hu, hq⟩)
      rintro rfl
      exact hvu (hown.trans hq.symm)
    obtain ⟨p, hp, t'', hc'⟩ := choice_some N hne2 t'
    refine ⟨(v, p), (mem_moveSet hs.wf hx.2.1).2 ((mem_otherLabels hs.wf hown).1 hp), ?_⟩
    rw [biMove_eq, M.bind_ok hc]
    unfold biNode
    rw [Dict.get_eq_ok_iff.2 hown, lift_ok_bind, if_pos ((mem_nbrLabels hs.wf).2 ⟨w, hw, hwv.trans hown⟩), M.bind_ok hc']
    rfl
  · rw [bi_law hN hs.wf hx.2.1 (hd _ hx.2.2) (han _ hx.2.2) hne g L hL]
    refine Finset.sum_congr rfl (fun f _ => ?_)
    unfold biProb biRate
    rw [one_div_mul_one_div]

theorem bi_rates (hs : FlipSetting G W a S) : Rates G W S (biRate G) := by
  constructor
  · intro m _ v u h
    have : (0 : ℚ) < (otherParts G m v).card := by
      exact_mod_cast card_otherParts_pos hs.wf (Finset.mem_image_of_mem Prod.fst (Finset.mem_filter.1 h).1)
    unfold biRate
    positivity
  · intro m _ v u w h hwv hw hmw
    obtain ⟨hadj, hne⟩ := (mem_cutPairs hs.wf).1 (Finset.mem_filter.1 h).1
    unfold biRate
    rw [card_otherParts_moved hs.wf hadj hne hw hwv hmw]

theorem bi_pos (hs : FlipSetting G W a S) : ∀ m ∈ S, (0 : ℚ) < 1 / (boundaryNodes G m).card := by
  intro m hm
  obtain ⟨⟨v, w⟩, hvw⟩ := hs.has_move hm
  have : (0 : ℚ) < (boundaryNodes G m).card := by
    exact_mod_cast Finset.card_pos.2 ⟨v, Finset.mem_image_of_mem Prod.fst (Finset.mem_filter.1 hvw).1⟩
  positivity

/-- plans in which the districts have more than one node each and are connected are anchored -/
theorem anchored_of_connected (hG : G.WF) {m : V → Option P} (h : ∀ v ∈ G.nodes, ConnectedOn G (G.nodes.filter (fun w => m w = m v)))
    (h2 : ∀ v ∈ G.nodes, 2 ≤ (G.nodes.filter (fun w => m w = m v)).card) : Anchored G m := by
  intro v hv
  obtain ⟨u, hu, -⟩ := (mem_boundaryNodes hG).1 hv
  have hvn := (hG.mem_of_adj hu).1
  obtain ⟨y, hy, hyv⟩ : ∃ y ∈ G.nodes.filter (fun w => m w = m v), y ≠ v := by
    by_contra hno
    push Not at hno
    have := Finset.card_le_card (fun y hy => Finset.mem_singleton.2 (hno y hy) : G.nodes.filter (fun w => m w = m v) ⊆ {v})
    rw [Finset.card_singleton] at this
    have := h2 v hvn
    omega
  have hreach := (h v hvn).2 v (Finset.mem_filter.2 ⟨hvn, rfl⟩) y hy
  rcases hreach.cases_head with rfl | ⟨w, hw, -⟩
  · exact absurd rfl hyv
  · exact ⟨w, hw.1, (Finset.mem_filter.1 hw.2.2).2⟩

end proposals

/-! ### The theorems -/

theorem enough_tries {c : ℚ} (hc0 : 0 ≤ c) (hc1 : c < 1) (n : ℕ) {δ : ℚ} (hδ : 0 < δ) : ∃ f0 : ℕ, ∀ f, f0 ≤ f → 1 - δ ≤ (1 - c ^ f) ^ n := by
  obtain ⟨f0, hf0⟩ := exists_pow_lt_of_lt_one (show 0 < δ / (n + 1 : ℕ) by positivity) hc1
  refine ⟨f0, fun f hf => ?_⟩
  have h1 : c ^ f ≤ c ^ f0 := pow_le_pow_of_le_one hc0 hc1.le hf
  have h2 : c ^ f ≤ 1 := pow_le_one₀ hc0 hc1.le
  have h3 := one_add_mul_le_pow (show (-2 : ℚ) ≤ -c ^ f by linarith) n
  have h4 : (n : ℚ) * c ^ f ≤ δ := by
    have : c ^ f ≤ δ / (n + 1 : ℕ) := h1.trans hf0.le
    rw [le_div_iff₀ (by positivity)] at this
    push_cast at this
    have h5 : 0 ≤ c ^ f := pow_nonneg hc0 f
    linarith
  have e : (1 + -c ^ f) ^ n = (1 - c ^ f) ^ n := by ring
  rw [e] at h3
  linarith

section theorems
variable (G : Graph V) (W : (V → Option P) → Bool) (a : Assignment V P) (S : Finset (V → Option P)) [DecidableEq (V → Option P)]

/-- **C104** (the run, `slow_reversible_propose`) The plans in `list(chain)` are a path of the Markov chain that goes to each plan that is one allowed move away
with the same probability.  With at most `f` proposals in each step the probability of a list of plans that begins with the initial one is at most the product
of the probabilities of its moves, and at least `(1 - c ^ f) ^ n` times this product. -/
theorem C104_slow_run (hs : FlipSetting G W a S) :
    ∃ c : ℚ, 0 ≤ c ∧ c < 1 ∧ ∀ N, 0 < N → (∀ m ∈ S, (allowedMoves G m (fun _ => true)).card ∣ N) → ∀ cs, Decides W cs → ∀ ch : Chain Tape (PlanState V P), ch.isValid = cs →
      ∀ (p : List (V → Option P)), (∀ m ∈ p, m ∈ S) → ∀ f body L, 0 < f → p.length + 1 < body → p.length * f ≤ L →
        avg N L (fun t => listValue (fun x => x.plan.mapping.get?) (fun l => if l = a.mapping.get? :: p then 1 else 0)
            (ch.list (flipChain (slowMove N G) alwaysAccept ⟨a, none⟩ (p.length + 1 : ℕ)) f body t)) ≤
          pathProb (flipKernel G W (fun _ _ => 1)) a.mapping.get? p ∧
        (1 - c ^ f) ^ p.length * pathProb (flipKernel G W (fun _ _ => 1)) a.mapping.get? p ≤
          avg N L (fun t => listValue (fun x => x.plan.mapping.get?) (fun l => if l = a.mapping.get? :: p then 1 else 0)
            (ch.list (flipChain (slowMove N G) alwaysAccept ⟨a, none⟩ (p.length + 1 : ℕ)) f body t)) := by
  obtain ⟨c, hc0, hc1, hc⟩ := exists_refusal_bound hs slow_rates (slow_pos hs)
  refine ⟨c, hc0, hc1, ?_⟩
  intro N hN hd cs hcs ch hch p hp f body L hf hbody hL
  exact flips_run hs slow_rates hcs hN (slow_pos hs) (fun x hx => slow_flipLaw hs hN hd hx) hc hc1 p hp ch hch f body hf hbody L (by rwa [mul_one])

/-- **C104** (the moves, `slow_reversible_propose`) all allowed moves are equally likely -/
theorem C104_slow_kernel (hs : FlipSetting G W a S) (m m' : V → Option P) [Decidable (FlipMove G W m m')] :
    flipKernel G W (fun _ _ => 1) m m' = if FlipMove G W m m' then 1 / ((allowedMoves G m W).card : ℚ) else 0 := by
  unfold flipKernel
  rw [slow_weight]
  split_ifs with h
  · obtain ⟨⟨v, u⟩, hx, rfl⟩ := h
    rw [flipRate_move hs.wf hx]
  · rw [flipRate_none h, zero_div]

/-- **C104** (the run is finished, `slow_reversible_propose`) With `f` proposals in each step a run of `n` steps is finished without an exception, with all its
plans in `S`, with probability at least `(1 - c ^ f) ^ n`. -/
theorem C104_slow_complete (hs : FlipSetting G W a S) :
    ∃ c : ℚ, 0 ≤ c ∧ c < 1 ∧ ∀ N, 0 < N → (∀ m ∈ S, (allowedMoves G m (fun _ => true)).card ∣ N) → ∀ cs, Decides W cs → ∀ ch : Chain Tape (PlanState V P), ch.isValid = cs →
      ∀ n f body L, 0 < f → n + 1 < body → n * f ≤ L →
        (1 - c ^ f) ^ n ≤ avg N L (fun t => listValue (fun x => x.plan.mapping.get?) (fun l => if (∀ m ∈ l, m ∈ S) ∧ l.length = n + 1 then 1 else 0)
            (ch.list (flipChain (slowMove N G) alwaysAccept ⟨a, none⟩ (n + 1 : ℕ)) f body t)) := by
  obtain ⟨c, hc0, hc1, hc⟩ := exists_refusal_bound hs slow_rates (slow_pos hs)
  refine ⟨c, hc0, hc1, ?_⟩
  intro N hN hd cs hcs ch hch n f body L hf hbody hL
  exact flips_complete hs slow_rates hcs hN (slow_pos hs) (fun x hx => slow_flipLaw hs hN hd hx) hc hc1 n ch hch f body hf hbody L (by rwa [mul_one])

/-- **C104** (ensemble averages, `slow_reversible_propose`) For every score of a plan: the probability that a run is finished and the average of the score over
it differs by `ε` or more from the mean over the plans that can be reached, weighted with their numbers of allowed moves, is at most `C / (n ε²)`, with a constant
that depends on the graph, the constraints and the score only. -/
theorem C104_slow_ensemble (hs : FlipSetting G W a S) (score : (V → Option P) → ℚ) :
    ∃ C : ℚ, 0 ≤ C ∧ ∀ N, 0 < N → (∀ m ∈ S, (allowedMoves G m (fun _ => true)).card ∣ N) → ∀ cs, Decides W cs → ∀ ch : Chain Tape (PlanState V P), ch.isValid = cs →
      ∀ b : Assignment V P, b.Coherent → b.Covers G.nodes → b.mapping.get? ∈ S → ∀ n f body L, 0 < f → n + 1 < body → n * f ≤ L → ∀ ε, 0 < ε →
        avg N L (fun t => listValue (fun x => x.plan.mapping.get?) (fun l => if ε ≤ |(l.map score).sum / l.length -
            (∑ m ∈ S, (allowedMoves G m W).card * score m) / ∑ m ∈ S, ((allowedMoves G m W).card : ℚ)| then 1 else 0)
          (ch.list (flipChain (slowMove N G) alwaysAccept ⟨b, none⟩ (n + 1 : ℕ)) f body t)) ≤ C / ((n + 1 : ℕ) * ε ^ 2) := by
  obtain ⟨C, hC, hall⟩ := flips_ensemble hs slow_rates score
  refine ⟨C, hC, ?_⟩
  intro N hN hd cs hcs ch hch b hb hcov hmem n f body L hf hbody hL ε hε
  have := hall hcs hN (slow_pos hs) (fun x hx => slow_flipLaw hs hN hd hx) ⟨b, none⟩ ⟨hb, hcov, hmem⟩ ch hch n f body L hf hbody (by rwa [mul_one]) ε hε
  simp only [slow_weight] at this
  exact this

/-- **C104** (convergence, `slow_reversible_propose`) However small `ε` and `δ` are, every run that is long enough and makes enough proposals in each step is finished with an
average of the score within `ε` of its limit, with probability at least `1 - δ`. -/
theorem C104_slow_converges (hs : FlipSetting G W a S) (score : (V → Option P) → ℚ) (ε δ : ℚ) (hε : 0 < ε) (hδ : 0 < δ) :
    ∃ n0 : ℕ, ∀ n, n0 ≤ n → ∃ f0 : ℕ, ∀ f, f0 ≤ f → ∀ N, 0 < N → (∀ m ∈ S, (allowedMoves G m (fun _ => true)).card ∣ N) → ∀ cs, Decides W cs → ∀ ch : Chain Tape (PlanState V P), ch.isValid = cs →
      ∀ body L, n + 1 < body → n * f ≤ L →
        1 - δ ≤ avg N L (fun t => listValue (fun x => x.plan.mapping.get?) (fun l => if |(l.map score).sum / l.length -
            (∑ m ∈ S, (allowedMoves G m W).card * score m) / ∑ m ∈ S, ((allowedMoves G m W).card : ℚ)| < ε then 1 else 0)
          (ch.list (flipChain (slowMove N G) alwaysAccept ⟨a, none⟩ (n + 1 : ℕ)) f body t)) := by
  obtain ⟨c, hc0, hc1, hc⟩ := exists_refusal_bound hs slow_rates (slow_pos hs)
  obtain ⟨C, hC, hall⟩ := C104_slow_ensemble G W a S hs score
  obtain ⟨n0, hn0⟩ := exists_nat_gt (C / (ε ^ 2 * (δ / 2)))
  refine ⟨n0, fun n hn => ?_⟩
  obtain ⟨f0, hf0⟩ := enough_tries hc0 hc1 n (half_pos hδ)
  refine ⟨f0 + 1, ?_⟩
  intro f hf N hN hd cs hcs ch hch body L hbody hL
  have hf' : 0 < f := by omega
  have h1 := flips_close hs slow_rates hcs hN (slow_pos hs) (fun x hx => slow_flipLaw hs hN hd hx) hc hc1 n ch hch f body hf' hbody L (by rwa [mul_one])
    (fun l => |(l.map score).sum / l.length - (∑ m ∈ S, (allowedMoves G m W).card * score m) / ∑ m ∈ S, ((allowedMoves G m W).card : ℚ)|) ε
  have h2 := hall N hN hd cs hcs ch hch a hs.coherent hs.covers hs.initial n f body L hf' hbody hL ε hε
  have h3 := hf0 f (by omega)
  have h4 : C / ((n + 1 : ℕ) * ε ^ 2) ≤ δ / 2 := by
    rw [div_lt_iff₀ (by positivity)] at hn0
    rw [div_le_iff₀ (by positivity)]
    have : (n0 : ℚ) ≤ (n + 1 : ℕ) := by exact_mod_cast hn.trans (Nat.le_succ n)
    have h5 : (n0 : ℚ) * (ε ^ 2 * (δ / 2)) ≤ (n + 1 : ℕ) * (ε ^ 2 * (δ / 2)) := mul_le_mul_of_nonneg_right this (by positivity)
    linarith
  linarith

/-- **C104** (two districts, `slow_reversible_propose`) With two districts the plan at the index `i` of a run cannot be a plan in which the size of a district has not the parity
of its size in the initial plan plus `i`.  So the law of the last plan of a run has no limit. -/
theorem C104_slow_parity (hs : FlipSetting G W a S) (p q : P) (hpq : p ≠ q) (ha : ∀ v ∈ G.nodes, a.mapping.get? v = some p ∨ a.mapping.get? v = some q)
    (N : ℕ) (hN : 0 < N) (hd : ∀ m ∈ S, (allowedMoves G m (fun _ => true)).card ∣ N) (cs : List (Constraint Tape (PlanState V P))) (hcs : Decides W cs) (ch : Chain Tape (PlanState V P)) (hch : ch.isValid = cs)
    (n f body L : ℕ) (hf : 0 < f) (hbody : n + 1 < body) (hL : n * f ≤ L) (m : V → Option P) (i : ℕ)
    (hm : ((G.nodes.filter (fun v => m v = some p)).card + (G.nodes.filter (fun v => a.mapping.get? v = some p)).card + i) % 2 = 1) :
    avg N L (fun t => listValue (fun x => x.plan.mapping.get?) (fun l => if l[i]? = some m then 1 else 0)
        (ch.list (flipChain (slowMove N G) alwaysAccept ⟨a, none⟩ (n + 1 : ℕ)) f body t)) = 0 :=
  flips_parity hs slow_rates hcs hN (slow_pos hs) (fun x hx => slow_flipLaw hs hN hd hx) hpq ha n ch hch f body hf hbody L (by rwa [mul_one]) m i hm

/-- **C104** (the run, `slow_reversible_propose_bi`) The same as `C104_slow_run`. -/
theorem C104_bi_run (hs : FlipSetting G W a S) (han : ∀ m ∈ S, Anchored G m) :
    ∃ c : ℚ, 0 ≤ c ∧ c < 1 ∧ ∀ N, 0 < N → (∀ m ∈ S, Divides N G m) → ∀ cs, Decides W cs → ∀ ch : Chain Tape (PlanState V P), ch.isValid = cs →
      ∀ (p : List (V → Option P)), (∀ m ∈ p, m ∈ S) → ∀ f body L, 0 < f → p.length + 1 < body → p.length * (f * 2) ≤ L →
        avg N L (fun t => listValue (fun x => x.plan.mapping.get?) (fun l => if l = a.mapping.get? :: p then 1 else 0)
            (ch.list (flipChain (biMove N G) alwaysAccept ⟨a, none⟩ (p.length + 1 : ℕ)) f body t)) ≤
          pathProb (flipKernel G W (biRate G)) a.mapping.get? p ∧
        (1 - c ^ f) ^ p.length * pathProb (flipKernel G W (biRate G)) a.mapping.get? p ≤
          avg N L (fun t => listValue (fun x => x.plan.mapping.get?) (fun l => if l = a.mapping.get? :: p then 1 else 0)
            (ch.list (flipChain (biMove N G) alwaysAccept ⟨a, none⟩ (p.length + 1 : ℕ)) f body t)) := by
  obtain ⟨c, hc0, hc1, hc⟩ := exists_refusal_bound hs (bi_rates hs) (bi_pos hs)
  refine ⟨c, hc0, hc1, ?_⟩
  intro N hN hd cs hcs ch hch p hp f body L hf hbody hL
  exact flips_run hs (bi_rates hs) hcs hN (bi_pos hs) (fun x hx => bi_flipLaw hs hN hd han hx) hc hc1 p hp ch hch f body hf hbody L hL

/-- **C104** (the moves, `slow_reversible_propose_bi`) a move of `v` is likely in inverse proportion to the number of districts next to `v` other than its own -/
theorem C104_bi_kernel (hs : FlipSetting G W a S) (m : V → Option P) (v u : V) (h : (v, u) ∈ allowedPairs G m W) :
    flipKernel G W (biRate G) m (moved m v (m u)) = 1 / ((otherParts G m v).card : ℚ) / biWeight G m W := by
  unfold flipKernel
  rw [flipRate_move hs.wf h]
  rfl

/-- **C104** (the run is finished, `slow_reversible_propose_bi`) -/
theorem C104_bi_complete (hs : FlipSetting G W a S) (han : ∀ m ∈ S, Anchored G m) :
    ∃ c : ℚ, 0 ≤ c ∧ c < 1 ∧ ∀ N, 0 < N → (∀ m ∈ S, Divides N G m) → ∀ cs, Decides W cs → ∀ ch : Chain Tape (PlanState V P), ch.isValid = cs →
      ∀ n f body L, 0 < f → n + 1 < body → n * (f * 2) ≤ L →
        (1 - c ^ f) ^ n ≤ avg N L (fun t => listValue (fun x => x.plan.mapping.get?) (fun l => if (∀ m ∈ l, m ∈ S) ∧ l.length = n + 1 then 1 else 0)
            (ch.list (flipChain (biMove N G) alwaysAccept ⟨a, none⟩ (n + 1 : ℕ)) f body t)) := by
  obtain ⟨c, hc0, hc1, hc⟩ := exists_refusal_bound hs (bi_rates hs) (bi_pos hs)
  refine ⟨c, hc0, hc1, ?_⟩
  intro N hN hd cs hcs ch hch n f body L hf hbody hL
  exact flips_complete hs (bi_rates hs) hcs hN (bi_pos hs) (fun x hx => bi_flipLaw hs hN hd han hx) hc hc1 n ch hch f body hf hbody L hL

/-- **C104** (ensemble averages, `slow_reversible_propose_bi`) The same with plans weighted by the sum over their allowed moves of one divided by the number of
districts to which the node could be moved. -/
theorem C104_bi_ensemble (hs : FlipSetting G W a S) (han : ∀ m ∈ S, Anchored G m) (score : (V → Option P) → ℚ) :
    ∃ C : ℚ, 0 ≤ C ∧ ∀ N, 0 < N → (∀ m ∈ S, Divides N G m) → ∀ cs, Decides W cs → ∀ ch : Chain Tape (PlanState V P), ch.isValid = cs →
      ∀ b : Assignment V P, b.Coherent → b.Covers G.nodes → b.mapping.get? ∈ S → ∀ n f body L, 0 < f → n + 1 < body → n * (f * 2) ≤ L → ∀ ε, 0 < ε →
        avg N L (fun t => listValue (fun x => x.plan.mapping.get?) (fun l => if ε ≤ |(l.map score).sum / l.length -
            (∑ m ∈ S, (∑ x ∈ allowedMoves G m W, 1 / ((otherParts G m x.1).card : ℚ)) * score m) /
              ∑ m ∈ S, ∑ x ∈ allowedMoves G m W, 1 / ((otherParts G m x.1).card : ℚ)| then 1 else 0)
          (ch.list (flipChain (biMove N G) alwaysAccept ⟨b, none⟩ (n + 1 : ℕ)) f body t)) ≤ C / ((n + 1 : ℕ) * ε ^ 2) := by
  obtain ⟨C, hC, hall⟩ := flips_ensemble hs (bi_rates hs) score
  refine ⟨C, hC, ?_⟩
  intro N hN hd cs hcs ch hch b hb hcov hmem n f body L hf hbody hL ε hε
  exact hall hcs hN (bi_pos hs) (fun x hx => bi_flipLaw hs hN hd han hx) ⟨b, none⟩ ⟨hb, hcov, hmem⟩ ch hch n f body L hf hbody hL ε hε

/-- **C104** (convergence, `slow_reversible_propose_bi`) However small `ε` and `δ` are, every run that is long enough and makes enough proposals in each step is finished with an
average of the score within `ε` of its limit, with probability at least `1 - δ`. -/
theorem C104_bi_converges (hs : FlipSetting G W a S) (han : ∀ m ∈ S, Anchored G m) (score : (V → Option P) → ℚ) (ε δ : ℚ) (hε : 0 < ε) (hδ : 0 < δ) :
    ∃ n0 : ℕ, ∀ n, n0 ≤ n → ∃ f0 : ℕ, ∀ f, f0 ≤ f → ∀ N, 0 < N → (∀ m ∈ S, Divides N G m) → ∀ cs, Decides W cs → ∀ ch : Chain Tape (PlanState V P), ch.isValid = cs →
      ∀ body L, n + 1 < body → n * (f * 2) ≤ L →
        1 - δ ≤ avg N L (fun t => listValue (fun x => x.plan.mapping.get?) (fun l => if |(l.map score).sum / l.length -
            (∑ m ∈ S, (∑ x ∈ allowedMoves G m W, 1 / ((otherParts G m x.1).card : ℚ)) * score m) /
              ∑ m ∈ S, ∑ x ∈ allowedMoves G m W, 1 / ((otherParts G m x.1).card : ℚ)| < ε then 1 else 0)
          (ch.list (flipChain (biMove N G) alwaysAccept ⟨a, none⟩ (n + 1 : ℕ)) f body t)) := by
  obtain ⟨c, hc0, hc1, hc⟩ := exists_refusal_bound hs (bi_rates hs) (bi_pos hs)
  obtain ⟨C, hC, hall⟩ := C104_bi_ensemble G W a S hs han score
  obtain ⟨n0, hn0⟩ := exists_nat_gt (C / (ε ^ 2 * (δ / 2)))
  refine ⟨n0, fun n hn => ?_⟩
  obtain ⟨f0, hf0⟩ := enough_tries hc0 hc1 n (half_pos hδ)
  refine ⟨f0 + 1, ?_⟩
  intro f hf N hN hd cs hcs ch hch body L hbody hL
  have hf' : 0 < f := by omega
  have h1 := flips_close hs (bi_rates hs) hcs hN (bi_pos hs) (fun x hx => bi_flipLaw hs hN hd han hx) hc hc1 n ch hch f body hf' hbody L hL
    (fun l => |(l.map score).sum / l.length - (∑ m ∈ S, (∑ x ∈ allowedMoves G m W, 1 / ((otherParts G m x.1).card : ℚ)) * score m) /
              ∑ m ∈ S, ∑ x ∈ allowedMoves G m W, 1 / ((otherParts G m x.1).card : ℚ)|) ε
  have h2 := hall N hN hd cs hcs ch hch a hs.coherent hs.covers hs.initial n f body L hf' hbody hL ε hε
  have h3 := hf0 f (by omega)
  have h4 : C / ((n + 1 : ℕ) * ε ^ 2) ≤ δ / 2 := by
    rw [div_lt_iff₀ (by positivity)] at hn0
    rw [div_le_iff₀ (by positivity)]
    have : (n0 : ℚ) ≤ (n + 1 : ℕ) := by exact_mod_cast hn.trans (Nat.le_succ n)
    have h5 : (n0 : ℚ) * (ε ^ 2 * (δ / 2)) ≤ (n + 1 : ℕ) * (ε ^ 2 * (δ / 2)) := mul_le_mul_of_nonneg_right this (by positivity)
    linarith
  linarith

/-- **C104** (two districts, `slow_reversible_propose_bi`) With two districts the plan at the index `i` of a run cannot be a plan in which the size of a district has not the parity
of its size in the initial plan plus `i`.  So the law of the last plan of a run has no limit. -/
theorem C104_bi_parity (hs : FlipSetting G W a S) (han : ∀ m ∈ S, Anchored G m) (p q : P) (hpq : p ≠ q) (ha : ∀ v ∈ G.nodes, a.mapping.get? v = some p ∨ a.mapping.get? v = some q)
    (N : ℕ) (hN : 0 < N) (hd : ∀ m ∈ S, Divides N G m) (cs : List (Constraint Tape (PlanState V P))) (hcs : Decides W cs) (ch : Chain Tape (PlanState V P)) (hch : ch.isValid = cs)
    (n f body L : ℕ) (hf : 0 < f) (hbody : n + 1 < body) (hL : n * (f * 2) ≤ L) (m : V → Option P) (i : ℕ)
    (hm : ((G.nodes.filter (fun v => m v = some p)).card + (G.nodes.filter (fun v => a.mapping.get? v = some p)).card + i) % 2 = 1) :
    avg N L (fun t => listValue (fun x => x.plan.mapping.get?) (fun l => if l[i]? = some m then 1 else 0)
        (ch.list (flipChain (biMove N G) alwaysAccept ⟨a, none⟩ (n + 1 : ℕ)) f body t)) = 0 :=
  flips_parity hs (bi_rates hs) hcs hN (bi_pos hs) (fun x hx => bi_flipLaw hs hN hd han hx) hpq ha n ch hch f body hf hbody L hL m i hm

/-- **C104** (it applies) If the constraints `W` require every district in `labels` to be contiguous, then for every initial plan with these labels that
satisfies them and has an allowed move there are a set `S` and a number `N` as in the theorems. -/
theorem C104_applies (hG : G.WF) (hc : a.Coherent) (hcov : a.Covers G.nodes) (hv : W a.mapping.get? = true) (hmv : (allowedPairs G a.mapping.get? W).Nonempty)
    (labels : Finset P) (hlab : ∀ v ∈ G.nodes, ∃ p ∈ labels, a.mapping.get? v = some p)
    (hW : ∀ m, W m = true → ∀ p ∈ labels, ConnectedOn G (G.nodes.filter (fun v => m v = some p))) :
    ∃ S : Finset (V → Option P), FlipSetting G W a S ∧ ∃ N, 0 < N ∧ ∀ m ∈ S, (allowedMoves G m (fun _ => true)).card ∣ N := by
  obtain ⟨S, hS⟩ := exists_flipClass G hG W a.mapping.get?
  have hall : ∀ m, FlipReach G W a.mapping.get? m → W m = true ∧ ∀ v ∈ G.nodes, ∃ p ∈ labels, m v = some p := by
    intro m hm
    induction hm with
    | refl => exact ⟨hv, hlab⟩
    | tail _ h ih =>
      obtain ⟨⟨v, u⟩, hx, rfl⟩ := h
      obtain ⟨h1, h2⟩ := Finset.mem_filter.1 hx
      refine ⟨h2, fun y hy => ?_⟩
      have hu := (hG.mem_of_adj ((mem_cutPairs hG).1 h1).1).2
      unfold moved
      split_ifs
      · exact ih.2 u hu
      · exact ih.2 y hy
  have hs : FlipSetting G W a S := ⟨hG, hc, hcov, hv, hS,
    fun m hm => back_of_contiguous hG labels hW (hall m ((hS m).1 hm)).1 (hall m ((hS m).1 hm)).2, hmv⟩
  refine ⟨S, hs, ∏ m ∈ S, (allowedMoves G m (fun _ => true)).card, Finset.prod_pos (fun m hm => ?_), fun m hm => Finset.dvd_prod_of_mem _ hm⟩
  obtain ⟨⟨v, u⟩, hx⟩ := hs.has_move hm
  have hx' : (v, u) ∈ allowedPairs G m (fun _ => true) := Finset.mem_filter.2 ⟨(Finset.mem_filter.1 hx).1, rfl⟩
  exact Finset.card_pos.2 ⟨(v, m u), Finset.mem_image_of_mem (fun x => (x.1, m x.2)) hx'⟩

end theorems

/-! ### Examples -/

/-- the path of four nodes with the plans `0111`, `0011`, `0001`; no district may be empty -/
theorem walk_flipSetting : FlipSetting walkPath noneEmpty walkB walkPlans where
  wf := by constructor <;> decide
  coherent := walk_coherent.2
  covers := by unfold Assignment.Covers; decide
  valid := by decide +kernel
  mem := by
    have hclosed : ∀ m ∈ walkPlans, ∀ x ∈ allowedPairs walkPath m noneEmpty, moved m x.1 (m x.2) ∈ walkPlans := by decide +kernel
    have hA : FlipReach walkPath noneEmpty walkB.mapping.get? walkA.mapping.get? := .single ⟨(1, 2), by decide +kernel, by decide +kernel⟩
    have hC : FlipReach walkPath noneEmpty walkB.mapping.get? walkC.mapping.get? := .single ⟨(2, 1), by decide +kernel, by decide +kernel⟩
    intro m
    constructor
    · intro hm
      unfold walkPlans at hm
      simp only [Finset.mem_insert, Finset.mem_singleton] at hm
      rcases hm with rfl | rfl | rfl
      · exact hA
      · exact .refl
      · exact hC
    · intro h
      induction h with
      | refl => decide +kernel
      | tail _ h ih =>
        obtain ⟨x, hx, rfl⟩ := h
        exact hclosed _ ih x hx
  back := by unfold Graph.Adj; decide +kernel
  moves := by decide +kernel

theorem chainAt_decides (a : Assignment V P) (W : (V → Option P) → Bool) : Decides W (chainAt a W).isValid := by
  intro x t
  show validator x (chainAt a W).isValid t = _
  unfold chainAt validator
  simp only
  cases hW : W x.plan.mapping.get?
  · rfl
  · rfl

/-- the weights of the three plans are 1, 2, 1: the average size of the first district tends to 2 -/
example (ε δ : ℚ) (hε : 0 < ε) (hδ : 0 < δ) :
    ∃ n0 : ℕ, ∀ n, n0 ≤ n → ∃ f0 : ℕ, ∀ f, f0 ≤ f → 1 - δ ≤ avg 2 (n * f) (fun t => listValue (fun x => x.plan.mapping.get?)
      (fun l => if |(l.map (fun m => (districtSize walkPath m 0 : ℚ))).sum / l.length - 2| < ε then 1 else 0)
      ((chainAt walkB noneEmpty).list (flipChain (slowMove 2 walkPath) alwaysAccept ⟨walkB, none⟩ (n + 1 : ℕ)) f (n + 2) t)) := by
  obtain ⟨n0, h⟩ := C104_slow_converges walkPath noneEmpty walkB walkPlans walk_flipSetting (fun m => districtSize walkPath m 0) ε δ hε hδ
  have e : (∑ m ∈ walkPlans, ((allowedMoves walkPath m noneEmpty).card : ℚ) * districtSize walkPath m 0) /
      ∑ m ∈ walkPlans, ((allowedMoves walkPath m noneEmpty).card : ℚ) = 2 := by decide +kernel
  rw [e] at h
  refine ⟨n0, fun n hn => ?_⟩
  obtain ⟨f0, hf0⟩ := h n hn
  exact ⟨f0, fun f hf => hf0 f hf 2 (by decide) (by decide +kernel) _ (chainAt_decides walkB noneEmpty) _ rfl (n + 2) (n * f) (by omega) le_rfl⟩

/-- the run never comes back to the plan it started in after an odd number of steps -/
example (n f : ℕ) (hf : 0 < f) (hn : n % 2 = 1) :
    avg 2 (n * f) (fun t => listValue (fun x => x.plan.mapping.get?) (fun l => if l[n]? = some walkB.mapping.get? then 1 else 0)
      ((chainAt walkB noneEmpty).list (flipChain (slowMove 2 walkPath) alwaysAccept ⟨walkB, none⟩ (n + 1 : ℕ)) f (n + 2) t)) = 0 :=
  C104_slow_parity walkPath noneEmpty walkB walkPlans walk_flipSetting 0 1 (by decide) (by decide +kernel) 2 (by decide) (by decide +kernel) _
    (chainAt_decides walkB noneEmpty) _ rfl n f (n + 2) (n * f) hf (by omega) le_rfl _ n (by omega)

/-- the path of five nodes with the plans `00111` and `00011` -/
theorem bi_flipSetting : FlipSetting biPath twoEach biC {biC.mapping.get?, biD.mapping.get?} where
  wf := by constructor <;> decide
  coherent := biPath_coherent.1
  covers := by unfold Assignment.Covers; decide
  valid := by decide +kernel
  mem := by
    have hclosed : ∀ m ∈ ({biC.mapping.get?, biD.mapping.get?} : Finset _), ∀ x ∈ allowedPairs biPath m twoEach,
      moved m x.1 (m x.2) ∈ ({biC.mapping.get?, biD.mapping.get?} : Finset _) := by decide +kernel
    have hD : FlipReach biPath twoEach biC.mapping.get? biD.mapping.get? := .single ⟨(2, 1), by decide +kernel, by decide +kernel⟩
    intro m
    constructor
    · intro hm
      simp only [Finset.mem_insert, Finset.mem_singleton] at hm
      rcases hm with rfl | rfl
      · exact .refl
      · exact hD
    · intro h
      induction h with
      | refl => decide +kernel
      | tail _ h ih =>
        obtain ⟨x, hx, rfl⟩ := h
        exact hclosed _ ih x hx
  back := by unfold Graph.Adj; decide +kernel
  moves := by decide +kernel

theorem bi_divides : ∀ m ∈ ({biC.mapping.get?, biD.mapping.get?} : Finset _), Divides 2 biPath m := by
  have : ∀ m ∈ ({biC.mapping.get?, biD.mapping.get?} : Finset _), (boundaryNodes biPath m).card ∣ 2 ∧ ∀ v ∈ boundaryNodes biPath m, (otherParts biPath m v).card ∣ 2 := by
    decide +kernel
  exact fun m hm => ⟨(this m hm).1, (this m hm).2⟩

/-- the average size of the first district tends to 5/2 -/
example (ε δ : ℚ) (hε : 0 < ε) (hδ : 0 < δ) :
    ∃ n0 : ℕ, ∀ n, n0 ≤ n → ∃ f0 : ℕ, ∀ f, f0 ≤ f → 1 - δ ≤ avg 2 (n * (f * 2)) (fun t => listValue (fun x => x.plan.mapping.get?)
      (fun l => if |(l.map (fun m => (districtSize biPath m 0 : ℚ))).sum / l.length - 5 / 2| < ε then 1 else 0)
      ((chainAt biC twoEach).list (flipChain (biMove 2 biPath) alwaysAccept ⟨biC, none⟩ (n + 1 : ℕ)) f (n + 2) t)) := by
  obtain ⟨n0, h⟩ := C104_bi_converges biPath twoEach biC _ bi_flipSetting (by unfold Anchored; decide +kernel) (fun m => districtSize biPath m 0) ε δ hε hδ
  have e : (∑ m ∈ ({biC.mapping.get?, biD.mapping.get?} : Finset _), (∑ x ∈ allowedMoves biPath m twoEach, 1 / ((otherParts biPath m x.1).card : ℚ)) * districtSize biPath m 0) /
      ∑ m ∈ ({biC.mapping.get?, biD.mapping.get?} : Finset _), ∑ x ∈ allowedMoves biPath m twoEach, 1 / ((otherParts biPath m x.1).card : ℚ) = 5 / 2 := by decide +kernel
  rw [e] at h
  refine ⟨n0, fun n hn => ?_⟩
  obtain ⟨f0, hf0⟩ := h n hn
  exact ⟨f0, fun f hf => hf0 f hf 2 (by decide) bi_divides _ (chainAt_decides biC twoEach) _ rfl (n + 2) (n * (f * 2)) (by omega) le_rfl⟩

end GC

import Verif.Props.AnyFlip
import Verif.Props.CutRuns

/-!
# Runs of `propose_any_node_flip` (C124)

A chain with `propose_any_node_flip` (proposals/proposals.py:8-22) and `always_accept` (accept.py:15-16).  Its proposals are symmetric (C123), but a
proposal that breaks a constraint is not a step of the chain, the next one is tried (chain.py:185-196).  So in the long run a plan counts in proportion to
the number of pairs of a node and a label that give a valid plan, and all plans count the same if there are no constraints.  As for the other flips, the
number of proposals in one step is bounded by `f`, which is taken as large as needed.
-/

set_option linter.unusedSectionVars false
set_option autoImplicit false

namespace GC

variable {V P : Type} [LinearOrder V] [LinearOrder P]

/-- `propose_any_node_flip` (proposals/proposals.py:8-22) on plans as values: the partition object is its assignment and that of its parent, as in
`Model/FlipWalk` -/
def anyMove (N : ℕ) (G : Graph V) (x : PlanState V P) : M Tape (PlanState V P) := do
  let f ← anyNodeFlip (uniRand N) G x.plan
  M.lift (x.flip f)

/-- the pairs of a node and a label for which the plan with that node in that district satisfies the constraints `W`; among them are those of every node
and the district it is in -/
def goodPairs (G : Graph V) (K : Finset P) (W : (V → Option P) → Bool) (m : V → Option P) : Finset (V × P) :=
  (G.nodes ×ˢ K).filter (fun x => W (moved m x.1 (some x.2)) = true)

/-- one node is put into some district, and the plan is valid -/
def AnyMove (G : Graph V) (K : Finset P) (W : (V → Option P) → Bool) (m m' : V → Option P) : Prop :=
  ∃ x ∈ goodPairs G K W m, moved m x.1 (some x.2) = m'

/-- An initial plan `a` that satisfies the constraints `W`, and the set `S` of the plans that can be reached from it through valid plans by moving one
node at a time, wherever it may be, to a district of `a`. -/
structure AnySetting (G : Graph V) (W : (V → Option P) → Bool) (a : Assignment V P) (S : Finset (V → Option P)) : Prop where
  coherent : a.Coherent
  covers : a.Covers G.nodes
  nodes : G.nodes.Nonempty
  valid : W a.mapping.get? = true
  mem : ∀ m, m ∈ S ↔ Relation.ReflTransGen (AnyMove G a.parts.keys.toFinset W) a.mapping.get? m

/-- the number of ways to get from one plan to another -/
def anyRate [DecidableEq (V → Option P)] (G : Graph V) (K : Finset P) (W : (V → Option P) → Bool) (m m' : V → Option P) : ℚ :=
  ((goodPairs G K W m).filter (fun x => moved m x.1 (some x.2) = m')).card

/-- the states of the chain -/
def AnyGood (G : Graph V) (a : Assignment V P) (S : Finset (V → Option P)) (x : PlanState V P) : Prop := InClass G S x ∧ x.plan.parts.keys = a.parts.keys

section setting
variable {G : Graph V} {W : (V → Option P) → Bool} {a : Assignment V P} {S : Finset (V → Option P)}

theorem moved_same {m : V → Option P} {v : V} {o : Option P} (h : m v = o) : moved m v o = m := by
  funext x
  unfold moved
  split_ifs with hx
  · rw [hx, h]
  · rfl

theorem moved_back (m : V → Option P) (v : V) (o o' : Option P) : moved (moved m v o) v o' = moved m v o' := by
  funext x
  unfold moved
  split_ifs <;> rfl

theorem moved_self (m : V → Option P) (v : V) (o : Option P) : moved m v o v = o := by
  unfold moved
  rw [if_pos rfl]

theorem AnySetting.initial (hs : AnySetting G W a S) : a.mapping.get? ∈ S := (hs.mem _).2 .refl

theorem AnySetting.closed (hs : AnySetting G W a S) {m m' : V → Option P} (hm : m ∈ S) (h : AnyMove G a.parts.keys.toFinset W m m') : m' ∈ S :=
  (hs.mem _).2 (((hs.mem _).1 hm).tail h)

/-- every plan that can be reached is valid and assigns the nodes of the graph to districts of the initial plan -/
theorem AnySetting.plan (hs : AnySetting G W a S) {m : V → Option P} (hm : m ∈ S) :
    W m = true ∧ (∀ v ∈ G.nodes, ∃ p ∈ a.parts.keys.toFinset, m v = some p) := by
  have := (hs.mem m).1 hm
  clear hm
  induction this with
  | refl =>
    refine ⟨hs.valid, fun v hv => ?_⟩
    obtain ⟨p, hp⟩ := Dict.mem_keys_iff.1 ((hs.covers v).2 hv)
    exact ⟨p, List.mem_toFinset.2 (hs.coherent.complete _ _ hp), hp⟩
  | tail _ h ih =>
    obtain ⟨⟨v, l⟩, hx, rfl⟩ := h
    obtain ⟨hx1, hx2⟩ := Finset.mem_filter.1 hx
    obtain ⟨hv, hl⟩ := Finset.mem_product.1 hx1
    refine ⟨hx2, fun y hy => ?_⟩
    unfold moved
    split_ifs
    · exact ⟨l, hl, rfl⟩
    · exact ih.2 y hy

/-- a move can be undone -/
theorem AnySetting.pair_back (hs : AnySetting G W a S) {m : V → Option P} (hm : m ∈ S) {x : V × P} (hx : x ∈ goodPairs G a.parts.keys.toFinset W m) :
    ∃ p, m x.1 = some p ∧ (x.1, p) ∈ goodPairs G a.parts.keys.toFinset W (moved m x.1 (some x.2)) ∧ moved (moved m x.1 (some x.2)) x.1 (some p) = m := by
  obtain ⟨hx1, hx2⟩ := Finset.mem_filter.1 hx
  obtain ⟨hv, hl⟩ := Finset.mem_product.1 hx1
  obtain ⟨hW, hp⟩ := hs.plan hm
  obtain ⟨p, hp, hmp⟩ := hp _ hv
  have e : moved (moved m x.1 (some x.2)) x.1 (some p) = m := by rw [moved_back, moved_same hmp]
  refine ⟨p, hmp, Finset.mem_filter.2 ⟨Finset.mem_product.2 ⟨hv, hp⟩, ?_⟩, e⟩
  dsimp only
  rw [e]
  exact hW

theorem AnySetting.reach (hs : AnySetting G W a S) {m m' : V → Option P} (hm : m ∈ S) (hm' : m' ∈ S) :
    Relation.ReflTransGen (AnyMove G a.parts.keys.toFinset W) m m' := by
  refine Relation.ReflTransGen.trans ?_ ((hs.mem m').1 hm')
  have := (hs.mem m).1 hm
  clear hm hm'
  induction this with
  | refl => exact .refl
  | @tail b c h1 h ih =>
    obtain ⟨x, hx, rfl⟩ := h
    obtain ⟨p, -, hp, e⟩ := hs.pair_back ((hs.mem b).2 h1) hx
    exact Relation.ReflTransGen.head ⟨(x.1, p), hp, e⟩ ih

/-- leaving a node where it is -/
theorem AnySetting.stay (hs : AnySetting G W a S) {m : V → Option P} (hm : m ∈ S) : ∃ x ∈ goodPairs G a.parts.keys.toFinset W m, moved m x.1 (some x.2) = m := by
  obtain ⟨v, hv⟩ := hs.nodes
  obtain ⟨hW, hp⟩ := hs.plan hm
  obtain ⟨p, hp, hmp⟩ := hp v hv
  refine ⟨(v, p), Finset.mem_filter.2 ⟨Finset.mem_product.2 ⟨hv, hp⟩, ?_⟩, moved_same hmp⟩
  dsimp only
  rw [moved_same hmp]
  exact hW

/-- the plans that can be reached are finitely many -/
theorem exists_anyClass (G : Graph V) (K : Finset P) (W : (V → Option P) → Bool) (m0 : V → Option P) :
    ∃ S : Finset (V → Option P), ∀ m, m ∈ S ↔ Relation.ReflTransGen (AnyMove G K W) m0 m := by
  classical
  let ext : (∀ v ∈ G.nodes, Option P) → V → Option P := fun f v => if h : v ∈ G.nodes then f v h else m0 v
  have hsub : ∀ m, Relation.ReflTransGen (AnyMove G K W) m0 m → (∀ v, v ∉ G.nodes → m v = m0 v) ∧ ∀ v ∈ G.nodes, m v ∈ G.nodes.image m0 ∪ K.image some := by
    intro m hm
    induction hm with
    | refl => exact ⟨fun _ _ => rfl, fun v hv => Finset.mem_union_left _ (Finset.mem_image_of_mem _ hv)⟩
    | tail _ h ih =>
      obtain ⟨⟨v, l⟩, hx, rfl⟩ := h
      obtain ⟨hv, hl⟩ := Finset.mem_product.1 (Finset.mem_filter.1 hx).1
      constructor
      · intro y hy
        unfold moved
        rw [if_neg (fun e : y = v => hy (by rw [e]; exact hv))]
        exact ih.1 y hy
      · intro y hy
        unfold moved
        split_ifs
        · exact Finset.mem_union_right _ (Finset.mem_image_of_mem _ hl)
        · exact ih.2 y hy
  refine ⟨((G.nodes.pi (fun _ => G.nodes.image m0 ∪ K.image some)).image ext).filter (Relation.ReflTransGen (AnyMove G K W) m0), fun m => ?_⟩
  rw [Finset.mem_filter]
  refine ⟨fun h => h.2, fun h => ⟨?_, h⟩⟩
  obtain ⟨h1, h2⟩ := hsub m h
  refine Finset.mem_image.2 ⟨fun v _ => m v, Finset.mem_pi.2 h2, ?_⟩
  funext v
  show (if h : v ∈ G.nodes then m v else m0 v) = m v
  split_ifs with hv
  · rfl
  · exact (h1 v hv).symm

/-- The setting exists for every valid initial plan. -/
theorem C124_applies (ha : a.Coherent) (hcov : a.Covers G.nodes) (hne : G.nodes.Nonempty) (hv : W a.mapping.get? = true) :
    ∃ S, AnySetting G W a S := by
  obtain ⟨S, hS⟩ := exists_anyClass G a.parts.keys.toFinset W a.mapping.get?
  exact ⟨S, ha, hcov, hne, hv, hS⟩

end setting

/-! ### One round -/

section round
variable {G : Graph V} {W : (V → Option P) → Bool} {a : Assignment V P} {S : Finset (V → Option P)} {N : ℕ}
  {x0 : PlanState V P} {steps : ℤ} {cs : List (Constraint Tape (PlanState V P))}

theorem anyMove_eq (N : ℕ) (G : Graph V) (x : PlanState V P) (t : Tape) : anyMove N G x t =
    ((uniRand N).choice (iter G.nodes) >>= fun n => (uniRand N).choice x.plan.parts.keys >>= fun l => M.lift (x.flip ⟨[(n, l)]⟩)) t := by
  unfold anyMove anyNodeFlip
  show M.bind (M.bind _ _) _ t = M.bind _ _ t
  unfold M.bind
  rcases (uniRand N).choice (iter G.nodes) t with ⟨e | n, t1⟩
  · rfl
  · show _ = M.bind _ _ t1
    unfold M.bind
    have : ∀ t1, (do let newpart ← (uniRand N).choice x.plan.parts.keys; pure (⟨[(n, newpart)]⟩ : Dict V P) : M Tape (Dict V P)) t1 =
        M.bind ((uniRand N).choice x.plan.parts.keys) (fun l => pure ⟨[(n, l)]⟩) t1 := fun _ => rfl
    simp only [this]
    unfold M.bind
    rcases (uniRand N).choice x.plan.parts.keys t1 with ⟨e | l, t2⟩ <;> rfl

theorem draws_anyMove (N : ℕ) (G : Graph V) (x : PlanState V P) : Draws 2 (anyMove N G x) := by
  have : anyMove N G x = (uniRand N).choice (iter G.nodes) >>= fun n => (uniRand N).choice x.plan.parts.keys >>= fun l => M.lift (x.flip ⟨[(n, l)]⟩) :=
    funext (anyMove_eq N G x)
  rw [this]
  exact (draws_choice N _).bind (j := 1) (fun n => (draws_choice N _).bind (j := 0) (fun l => draws_lift 0 _))

theorem anyGood_flip (hs : AnySetting G W a S) {x : PlanState V P} (hx : AnyGood G a S x) {f : V × P} (hf : f ∈ G.nodes ×ˢ a.parts.keys.toFinset) :
    ∃ b, x.flip ⟨[f]⟩ = .ok ⟨b, some x.plan⟩ ∧ b.mapping.get? = moved x.plan.mapping.get? f.1 (some f.2) ∧ b.Coherent ∧ b.Covers G.nodes ∧
      b.parts.keys = a.parts.keys := by
  obtain ⟨hv, hl⟩ := Finset.mem_product.1 hf
  obtain ⟨⟨hc, hcov, hS⟩, hk⟩ := hx
  obtain ⟨b, hb, hbc, hbk, hbm⟩ := flip_one hc ((hcov f.1).2 hv) (l := f.2) (by rw [hk]; exact List.mem_toFinset.1 hl)
  refine ⟨b, ?_, funext hbm, hbc, ?_, hbk.trans hk⟩
  · unfold PlanState.flip
    rw [hb]
    rfl
  · intro y
    rw [← hcov y, Dict.mem_keys_iff, Dict.mem_keys_iff, hbm y]
    by_cases hy : y = f.1
    · rw [if_pos hy, hy]
      have := Dict.mem_keys_iff.1 ((hcov f.1).2 hv)
      simp [this]
    · rw [if_neg hy]

theorem AnySetting.labels (hs : AnySetting G W a S) : a.parts.keys ≠ [] := by
  obtain ⟨v, hv⟩ := hs.nodes
  obtain ⟨p, hp⟩ := Dict.mem_keys_iff.1 ((hs.covers v).2 hv)
  exact List.ne_nil_of_mem (hs.coherent.complete _ _ hp)

theorem anyMove_total (hs : AnySetting G W a S) {x : PlanState V P} (hx : AnyGood G a S x) (t : Tape) :
    ∃ f ∈ G.nodes ×ˢ a.parts.keys.toFinset, (anyMove N G x t).1 = x.flip ⟨[f]⟩ := by
  obtain ⟨v0, hv0⟩ := hs.nodes
  obtain ⟨v, hv, t1, e1⟩ := choice_some N (l := iter G.nodes) (List.ne_nil_of_mem (mem_iter.2 hv0)) t
  obtain ⟨l, hl, t2, e2⟩ := choice_some N (l := x.plan.parts.keys) (by rw [hx.2]; exact hs.labels) t1
  refine ⟨(v, l), Finset.mem_product.2 ⟨mem_iter.1 hv, List.mem_toFinset.2 (by rw [← hx.2]; exact hl)⟩, ?_⟩
  rw [anyMove_eq, M.bind_ok e1, M.bind_ok e2]
  rfl

/-- the law of the proposal: every pair of a node and a label is equally likely -/
theorem anyMove_law (hs : AnySetting G W a S) (hN : 0 < N) (hn : G.nodes.card ∣ N) (hk : a.parts.keys.length ∣ N) {x : PlanState V P} (hx : AnyGood G a S x)
    (g : Py (PlanState V P) → ℚ) :
    avg N 2 (fun t => g (anyMove N G x t).1) = ∑ f ∈ G.nodes ×ˢ a.parts.keys.toFinset, 1 / ((G.nodes.card : ℚ) * a.parts.keys.length) * g (x.flip ⟨[f]⟩) := by
  obtain ⟨v0, hv0⟩ := hs.nodes
  have hiter : (iter G.nodes).toFinset = G.nodes := by ext y; simp
  rw [avg_congr N 2 (fun t => by rw [anyMove_eq])]
  rw [avg_choice hN 1 (iter G.nodes) (List.ne_nil_of_mem (mem_iter.2 hv0)) (by rw [length_iter]; exact hn) _ g]
  have e : ∀ n, avg N 1 (fun t => g (((uniRand N).choice x.plan.parts.keys >>= fun l => M.lift (x.flip ⟨[(n, l)]⟩)) t).1) =
      (∑ l ∈ a.parts.keys.toFinset, g (x.flip ⟨[(n, l)]⟩)) / a.parts.keys.length := by
    intro n
    rw [avg_choice hN 0 x.plan.parts.keys (by rw [hx.2]; exact hs.labels) (by rw [hx.2]; exact hk) _ g, hx.2, List.sum_toFinset _ hs.coherent.parts_wf]
    congr 2
    refine List.map_congr_left (fun l _ => ?_)
    exact avg_const hN 0 _
  simp only [e]
  rw [← List.sum_toFinset _ (nodup_iter G.nodes), hiter, length_iter, Finset.sum_product, Finset.sum_div]
  refine Finset.sum_congr rfl (fun v _ => ?_)
  rw [← Finset.mul_sum]
  ring

variable [DecidableEq (V → Option P)]

theorem anyRate_sum (hs : AnySetting G W a S) {m : V → Option P} (hm : m ∈ S) :
    rateSum S (anyRate G a.parts.keys.toFinset W) m = (goodPairs G a.parts.keys.toFinset W m).card := by
  unfold rateSum anyRate
  rw [← Nat.cast_sum]
  congr 1
  exact (Finset.card_eq_sum_card_fiberwise (fun x hx => hs.closed hm ⟨x, hx, rfl⟩)).symm

theorem anyRate_symm (hs : AnySetting G W a S) {m m' : V → Option P} (hm : m ∈ S) (hm' : m' ∈ S) :
    anyRate G a.parts.keys.toFinset W m m' = anyRate G a.parts.keys.toFinset W m' m := by
  have key : ∀ m m', m ∈ S → m' ∈ S → ((goodPairs G a.parts.keys.toFinset W m).filter (fun x => moved m x.1 (some x.2) = m')).card ≤
      ((goodPairs G a.parts.keys.toFinset W m').filter (fun x => moved m' x.1 (some x.2) = m)).card := by
    intro m m' hm hm'
    refine Finset.card_le_card_of_injOn (fun x => (x.1, (m x.1).getD x.2)) ?_ ?_
    · intro x hx
      obtain ⟨hx1, rfl⟩ := Finset.mem_filter.1 hx
      obtain ⟨p, hp, h1, h2⟩ := hs.pair_back hm hx1
      refine Finset.mem_filter.2 ?_
      simp only [hp, Option.getD_some]
      exact ⟨h1, h2⟩
    · intro x hx y hy h
      have hx2 := (Finset.mem_filter.1 hx).2
      have hy2 := (Finset.mem_filter.1 hy).2
      have h1 : x.1 = y.1 := (Prod.mk.inj h).1
      refine Prod.ext h1 ?_
      have e := congrFun (hx2.trans hy2.symm) x.1
      rw [moved_self, h1, moved_self] at e
      exact Option.some.inj e
  unfold anyRate
  congr 1
  exact le_antisymm (key m m' hm hm') (key m' m hm' hm)

theorem anyRate_pos {K : Finset P} {m m' : V → Option P} (h : AnyMove G K W m m') : 0 < anyRate G K W m m' := by
  obtain ⟨x, hx, rfl⟩ := h
  unfold anyRate
  have h : 0 < ((goodPairs G K W m).filter (fun y => moved m y.1 (some y.2) = moved m x.1 (some x.2))).card :=
    Finset.card_pos.2 ⟨x, Finset.mem_filter.2 ⟨hx, rfl⟩⟩
  exact_mod_cast h

theorem any_walk (hs : AnySetting G W a S) :
    RateWalk S (fun _ => 1 / ((G.nodes.card : ℚ) * a.parts.keys.length)) (anyRate G a.parts.keys.toFinset W) (fun _ _ => 1) where
  nonneg := fun _ _ _ _ => Nat.cast_nonneg _
  sum := by
    intro m hm
    rw [anyRate_sum hs hm]
    obtain ⟨x, hx, -⟩ := hs.stay hm
    exact_mod_cast Finset.card_pos.2 ⟨x, hx⟩
  chance := one_isChance
  pos := by
    intro m _
    have h1 : (0 : ℚ) < G.nodes.card := by exact_mod_cast Finset.card_pos.2 hs.nodes
    have h2 : (0 : ℚ) < a.parts.keys.length := by exact_mod_cast List.length_pos_iff.2 hs.labels
    positivity
  le := by
    intro m hm
    rw [anyRate_sum hs hm]
    have h1 : (0 : ℚ) < G.nodes.card := by exact_mod_cast Finset.card_pos.2 hs.nodes
    have h2 : (0 : ℚ) < a.parts.keys.length := by exact_mod_cast List.length_pos_iff.2 hs.labels
    rw [one_div, inv_mul_le_iff₀ (by positivity), mul_one]
    have := Finset.card_filter_le (G.nodes ×ˢ a.parts.keys.toFinset) (fun x => W (moved m x.1 (some x.2)) = true)
    rw [Finset.card_product, List.toFinset_card_of_nodup hs.coherent.parts_wf] at this
    exact_mod_cast this

theorem any_rateLaw (hs : AnySetting G W a S) (hcs : Decides W cs) (hN : 0 < N) (hn : G.nodes.card ∣ N) (hk : a.parts.keys.length ∣ N) :
    RateLaw N 2 (flipChain (anyMove N G) alwaysAccept x0 steps) cs (AnyGood G a S) (fun x => x.plan.mapping.get?) S
      (fun _ => 1 / ((G.nodes.card : ℚ) * a.parts.keys.length)) (anyRate G a.parts.keys.toFinset W) (fun _ _ => 1) := by
  unfold RateLaw
  rw [always_tilt]
  refine ⟨fun _ _ => rfl, fun x hx => draws_oneTry hcs (draws_anyMove N G x), ?_, ?_, fun x hx => hx.1.2.2, ?_, ?_⟩
  · intro x hx t y hy
    obtain ⟨f, hf, he⟩ := anyMove_total (N := N) hs hx t
    obtain ⟨b, hb, hm, hc, hcov, hkeys⟩ := anyGood_flip hs hx hf
    rw [oneTry_sieve hcs, he, hb] at hy
    simp only [sieve, Except.ok.injEq] at hy
    split_ifs at hy with hW
    cases hy
    refine ⟨⟨hc, hcov, hs.closed hx.1.2.2 ⟨f, ?_, hm.symm⟩⟩, hkeys⟩
    rw [hm] at hW
    exact Finset.mem_filter.2 ⟨hf, hW⟩
  · intro x hx t
    obtain ⟨f, hf, he⟩ := anyMove_total (N := N) hs hx t
    obtain ⟨b, hb, -⟩ := anyGood_flip hs hx hf
    rw [oneTry_sieve hcs, he, hb]
    simp [sieve]
  · intro x hx m' _
    have e : ∀ t, triedTo (fun x : PlanState V P => x.plan.mapping.get?) m' (oneTry (flipChain (anyMove N G) alwaysAccept x0 steps) cs x t).1 =
        (fun q => triedTo (fun x : PlanState V P => x.plan.mapping.get?) m' (sieve W q)) (anyMove N G x t).1 := fun t => by rw [oneTry_sieve hcs]
    rw [avg_congr N 2 e, anyMove_law hs hN hn hk hx (fun q => triedTo (fun x : PlanState V P => x.plan.mapping.get?) m' (sieve W q)), ← Finset.mul_sum]
    congr 1
    unfold anyRate goodPairs
    rw [Finset.card_eq_sum_ones, Nat.cast_sum, Finset.sum_filter, Finset.sum_filter]
    refine Finset.sum_congr rfl (fun f hf => ?_)
    obtain ⟨b, hb, hm, -⟩ := anyGood_flip hs hx hf
    rw [hb]
    simp only [sieve, hm]
    by_cases hW : W (moved x.plan.mapping.get? f.1 (some f.2)) = true
    · rw [if_pos hW, if_pos hW]
      simp only [triedTo, hm]
      split_ifs <;> simp
    · rw [if_neg hW, if_neg hW]
      simp only [triedTo]
  · intro x hx
    have e : ∀ t, wasRefused (oneTry (flipChain (anyMove N G) alwaysAccept x0 steps) cs x t).1 = (fun q => wasRefused (sieve W q)) (anyMove N G x t).1 :=
      fun t => by rw [oneTry_sieve hcs]
    have h1 := anyMove_law hs hN hn hk hx (fun _ => 1)
    rw [avg_const hN] at h1
    rw [avg_congr N 2 e, anyMove_law hs hN hn hk hx (fun q => wasRefused (sieve W q)), anyRate_sum hs hx.1.2.2]
    have h2 : ((goodPairs G a.parts.keys.toFinset W x.plan.mapping.get?).card : ℚ) =
        ∑ f ∈ G.nodes ×ˢ a.parts.keys.toFinset, if W (moved x.plan.mapping.get? f.1 (some f.2)) = true then 1 else 0 := by
      unfold goodPairs
      rw [Finset.card_eq_sum_ones, Nat.cast_sum, Finset.sum_filter]
      push_cast
      rfl
    rw [h2, Finset.mul_sum]
    generalize hu : 1 / ((G.nodes.card : ℚ) * a.parts.keys.length) = u at h1 ⊢
    refine Eq.trans ?_ (congrArg (fun z => z - _) h1.symm)
    rw [← Finset.sum_sub_distrib]
    refine Finset.sum_congr rfl (fun f hf => ?_)
    obtain ⟨b, hb, hm, -⟩ := anyGood_flip hs hx hf
    rw [hb]
    simp only [sieve, hm]
    by_cases hW : W (moved x.plan.mapping.get? f.1 (some f.2)) = true
    · rw [if_pos hW, if_pos hW]
      simp only [wasRefused]
      ring
    · rw [if_neg hW, if_neg hW]
      simp only [wasRefused]
      ring

theorem any_connects (hs : AnySetting G W a S) : Connects S (walkKernel S (anyRate G a.parts.keys.toFinset W) (fun _ _ => 1)) := by
  refine walk_connects (any_walk hs) (fun _ _ _ _ => one_pos) ?_
  intro m hm m' hm'
  have h := hs.reach hm hm'
  clear hm'
  induction h with
  | refl => exact .refl
  | @tail b c h1 h ih =>
    have hb : b ∈ S := (hs.mem b).2 (((hs.mem m).1 hm).trans h1)
    exact ih.tail ⟨hb, hs.closed hb h, anyRate_pos h⟩

/-- the share of a plan in the limit -/
def anyShare (G : Graph V) (K : Finset P) (W : (V → Option P) → Bool) (S : Finset (V → Option P)) (m : V → Option P) : ℚ :=
  (goodPairs G K W m).card / ∑ m' ∈ S, ((goodPairs G K W m').card : ℚ)

theorem any_invariant (hs : AnySetting G W a S) :
    Invariant S (walkKernel S (anyRate G a.parts.keys.toFinset W) (fun _ _ => 1)) (anyShare G a.parts.keys.toFinset W S) := by
  have h := balance_invariant (any_walk hs) ⟨_, hs.initial⟩ (fun m hm m' hm' => anyRate_symm hs hm hm') (g := fun _ => 1) (fun _ _ => one_pos)
    (fun _ _ _ _ => by simp)
  have e : ∀ m ∈ S, (rateSum S (anyRate G a.parts.keys.toFinset W) m / 1) / ∑ y ∈ S, rateSum S (anyRate G a.parts.keys.toFinset W) y / 1 =
      anyShare G a.parts.keys.toFinset W S m := by
    intro m hm
    unfold anyShare
    simp only [div_one]
    rw [anyRate_sum hs hm, Finset.sum_congr rfl (fun y hy => anyRate_sum hs hy)]
  refine ⟨fun m hm => ?_, ?_, fun m hm => ?_⟩
  · rw [← e m hm]
    exact h.nonneg m hm
  · rw [← h.sum]
    exact Finset.sum_congr rfl (fun m hm => (e m hm).symm)
  · rw [← e m hm, ← h.step m hm]
    exact Finset.sum_congr rfl (fun y hy => by rw [e y hy])

end round

/-! ### The runs -/

section runs
variable {V P : Type} [LinearOrder V] [LinearOrder P] [DecidableEq (V → Option P)]
variable (G : Graph V) (W : (V → Option P) → Bool) (a : Assignment V P) (S : Finset (V → Option P))

/-- **C124** (the run) The probability that a run of `propose_any_node_flip` with `always_accept` is finished and that its plans are the initial plan and
then the plans `p` is at most, and with many proposals in each step nearly, the probability of that path for the transition probabilities `K`: from `m` the
chain gets to `m'` in proportion to the number of pairs of a node and a label that lead there. -/
theorem C124_run (hs : AnySetting G W a S) :
    ∃ c : ℚ, 0 ≤ c ∧ c < 1 ∧ ∃ K : (V → Option P) → (V → Option P) → ℚ, (∀ m ∈ S, ∑ m' ∈ S, K m m' = 1) ∧
      (∀ m ∈ S, ∀ m', K m m' = ((goodPairs G a.parts.keys.toFinset W m).filter (fun x => moved m x.1 (some x.2) = m')).card /
        (goodPairs G a.parts.keys.toFinset W m).card) ∧
      ∀ N, 0 < N → G.nodes.card ∣ N → a.parts.keys.length ∣ N → ∀ cs, Decides W cs → ∀ ch : Chain Tape (PlanState V P), ch.isValid = cs →
      ∀ (p : List (V → Option P)), (∀ m ∈ p, m ∈ S) → ∀ f body L, 0 < f → p.length + 1 < body → p.length * (f * 2) ≤ L →
        avg N L (fun t => listValue (fun x => x.plan.mapping.get?) (fun l => if l = a.mapping.get? :: p then 1 else 0)
            (ch.list (flipChain (anyMove N G) alwaysAccept ⟨a, none⟩ (p.length + 1 : ℕ)) f body t)) ≤ pathProb K a.mapping.get? p ∧
        (1 - c ^ f) ^ p.length * pathProb K a.mapping.get? p ≤
          avg N L (fun t => listValue (fun x => x.plan.mapping.get?) (fun l => if l = a.mapping.get? :: p then 1 else 0)
            (ch.list (flipChain (anyMove N G) alwaysAccept ⟨a, none⟩ (p.length + 1 : ℕ)) f body t)) := by
  have hwalk := any_walk hs
  obtain ⟨c, hc⟩ := hwalk.refusal ⟨_, hs.initial⟩
  refine ⟨c, hc.1, hc.2.1, walkKernel S (anyRate G a.parts.keys.toFinset W) (fun _ _ => 1), hwalk.isKernel.sum, fun m hm m' => ?_, ?_⟩
  · unfold walkKernel
    rw [always_tilt]
    unfold rateKernel
    rw [anyRate_sum hs hm]
    rfl
  · intro N hN hn hk cs hcs ch hch p hp f body L hf hbody hL
    exact rate_run hwalk hc (any_rateLaw (x0 := ⟨a, none⟩) (steps := (p.length + 1 : ℕ)) hs hcs hN hn hk) hN p hp rfl
      ⟨⟨hs.coherent, hs.covers, hs.initial⟩, rfl⟩ ch hch f body hf hbody L hL

/-- **C124** (ensembles) Ensemble averages of a long run converge to the mean in which every plan that can be reached counts in proportion to the number
of pairs of a node and a label that give a valid plan. -/
theorem C124_converges (hs : AnySetting G W a S) (score : (V → Option P) → ℚ) (ε δ : ℚ) (hε : 0 < ε) (hδ : 0 < δ) :
    ∃ n0 : ℕ, ∀ n, n0 ≤ n → ∃ f0 : ℕ, ∀ f, f0 ≤ f → ∀ N, 0 < N → G.nodes.card ∣ N → a.parts.keys.length ∣ N → ∀ cs, Decides W cs →
      ∀ ch : Chain Tape (PlanState V P), ch.isValid = cs → ∀ body L, n + 1 < body → n * (f * 2) ≤ L →
        1 - δ ≤ avg N L (fun t => listValue (fun x => x.plan.mapping.get?) (fun l => if |(l.map score).sum / l.length -
            ∑ m ∈ S, ((goodPairs G a.parts.keys.toFinset W m).card / ∑ m' ∈ S, ((goodPairs G a.parts.keys.toFinset W m').card : ℚ)) * score m| < ε then 1 else 0)
          (ch.list (flipChain (anyMove N G) alwaysAccept ⟨a, none⟩ (n + 1 : ℕ)) f body t)) := by
  obtain ⟨n0, h⟩ := rate_converges (R := PlanState V P) (any_walk hs) ⟨_, hs.initial⟩ (any_invariant hs) (any_connects hs) score hε hδ
  refine ⟨n0, fun n hn => ?_⟩
  obtain ⟨f0, h⟩ := h n hn
  refine ⟨f0, ?_⟩
  intro f hf N hN hn hk cs hcs ch hch body L hbody hL
  exact h f hf (any_rateLaw (x0 := ⟨a, none⟩) (steps := (n + 1 : ℕ)) hs hcs hN hn hk) hN rfl ⟨⟨hs.coherent, hs.covers, hs.initial⟩, rfl⟩ ch hch body L hbody hL

/-- **C124** (the last plan) The probability that a long run ends in plan `m` converges to its share.  (The chain is never periodic, as it may stay.) -/
theorem C124_last (hs : AnySetting G W a S) (m : V → Option P) (hm : m ∈ S) (δ : ℚ) (hδ : 0 < δ) :
    ∃ n0 : ℕ, ∀ n, n0 ≤ n → ∃ f0 : ℕ, ∀ f, f0 ≤ f → ∀ N, 0 < N → G.nodes.card ∣ N → a.parts.keys.length ∣ N → ∀ cs, Decides W cs →
      ∀ ch : Chain Tape (PlanState V P), ch.isValid = cs → ∀ body L, n + 1 < body → n * (f * 2) ≤ L →
        |avg N L (fun t => listValue (fun x => x.plan.mapping.get?) (fun l => if l.getLast? = some m then 1 else 0)
          (ch.list (flipChain (anyMove N G) alwaysAccept ⟨a, none⟩ (n + 1 : ℕ)) f body t)) -
            (goodPairs G a.parts.keys.toFinset W m).card / ∑ m' ∈ S, ((goodPairs G a.parts.keys.toFinset W m').card : ℚ)| ≤ δ := by
  have hloop : 0 < walkKernel S (anyRate G a.parts.keys.toFinset W) (fun _ _ => 1) m m := by
    unfold walkKernel
    rw [always_tilt]
    exact div_pos (anyRate_pos (hs.stay hm)) ((any_walk hs).sum m hm)
  obtain ⟨n0, h⟩ := rate_last (R := PlanState V P) (any_walk hs) ⟨_, hs.initial⟩ (any_invariant hs) (any_connects hs) hm hloop hm hδ
  refine ⟨n0, fun n hn => ?_⟩
  obtain ⟨f0, h⟩ := h n hn
  refine ⟨f0, ?_⟩
  intro f hf N hN hn hk cs hcs ch hch body L hbody hL
  exact h f hf (any_rateLaw (x0 := ⟨a, none⟩) (steps := (n + 1 : ℕ)) hs hcs hN hn hk) hN rfl ⟨⟨hs.coherent, hs.covers, hs.initial⟩, rfl⟩ ch hch body L hbody hL

/-- **C124** (without constraints) If every plan is valid, the plans that can be reached are all the plans with these labels, and all have the same share. -/
theorem C124_free (hs : AnySetting G (fun _ => true) a S) :
    (∀ m, m ∈ S ↔ (∀ v ∈ G.nodes, ∃ p ∈ a.parts.keys, m v = some p) ∧ ∀ v, v ∉ G.nodes → m v = none) ∧
    ∀ m ∈ S, (goodPairs G a.parts.keys.toFinset (fun _ => true) m).card / ∑ m' ∈ S, ((goodPairs G a.parts.keys.toFinset (fun _ => true) m').card : ℚ) = 1 / S.card := by
  have hcard : ∀ m : V → Option P, (goodPairs G a.parts.keys.toFinset (fun _ => true) m).card = G.nodes.card * a.parts.keys.length := by
    intro m
    unfold goodPairs
    rw [Finset.filter_true_of_mem (fun _ _ => rfl), Finset.card_product, List.toFinset_card_of_nodup hs.coherent.parts_wf]
  constructor
  · intro m
    constructor
    · intro hm
      refine ⟨fun v hv => ?_, ?_⟩
      · obtain ⟨p, hp, h⟩ := (hs.plan hm).2 v hv
        exact ⟨p, List.mem_toFinset.1 hp, h⟩
      · have := (hs.mem m).1 hm
        clear hm
        induction this with
        | refl => exact fun v hv => Dict.get?_eq_none_iff.2 (fun h => hv ((hs.covers v).1 h))
        | tail _ h ih =>
          obtain ⟨⟨v, l⟩, hx, rfl⟩ := h
          obtain ⟨hv, -⟩ := Finset.mem_product.1 (Finset.mem_filter.1 hx).1
          intro y hy
          unfold moved
          rw [if_neg (fun e : y = v => hy (by rw [e]; exact hv))]
          exact ih y hy
    · rintro ⟨h1, h2⟩
      have key : ∀ k (b : V → Option P), b ∈ S → (∀ v, v ∉ G.nodes → b v = none) → (G.nodes.filter (fun v => b v ≠ m v)).card = k → m ∈ S := by
        intro k
        induction k with
        | zero =>
          intro b hb hout hk
          rw [Finset.card_eq_zero, Finset.filter_eq_empty_iff] at hk
          have : b = m := by
            funext v
            by_cases hv : v ∈ G.nodes
            · exact not_not.1 (hk hv)
            · rw [hout v hv, h2 v hv]
          rwa [← this]
        | succ k ih =>
          intro b hb hout hk
          obtain ⟨v, hv⟩ := Finset.card_pos.1 (show 0 < (G.nodes.filter (fun v => b v ≠ m v)).card by omega)
          obtain ⟨hv1, hv2⟩ := Finset.mem_filter.1 hv
          obtain ⟨p, hp, hmp⟩ := h1 v hv1
          refine ih (moved b v (some p)) (hs.closed hb ⟨(v, p), Finset.mem_filter.2 ⟨Finset.mem_product.2 ⟨hv1, List.mem_toFinset.2 hp⟩, rfl⟩, rfl⟩) ?_ ?_
          · intro y hy
            unfold moved
            rw [if_neg (fun e : y = v => hy (by rw [e]; exact hv1))]
            exact hout y hy
          · have : G.nodes.filter (fun y => moved b v (some p) y ≠ m y) = (G.nodes.filter (fun v => b v ≠ m v)).erase v := by
              ext y
              rw [Finset.mem_filter, Finset.mem_erase, Finset.mem_filter]
              unfold moved
              by_cases hy : y = v
              · subst hy; simp [hmp]
              · simp [hy]
            rw [this, Finset.card_erase_of_mem hv, hk]
            rfl
      exact key _ a.mapping.get? hs.initial (fun v hv => Dict.get?_eq_none_iff.2 (fun h => hv ((hs.covers v).1 h))) rfl
  · intro m hm
    simp only [hcard]
    rw [Finset.sum_const, nsmul_eq_mul]
    have h1 : (0 : ℚ) < G.nodes.card := by exact_mod_cast Finset.card_pos.2 hs.nodes
    have h2 : (0 : ℚ) < a.parts.keys.length := by exact_mod_cast List.length_pos_iff.2 hs.labels
    have h3 : (0 : ℚ) < S.card := by exact_mod_cast Finset.card_pos.2 ⟨m, hm⟩
    push_cast
    field_simp

/-- **C124** (the number of plans) Without constraints there are as many plans within reach as ways to label the nodes. -/
theorem C124_count (hs : AnySetting G (fun _ => true) a S) : S.card = a.parts.keys.length ^ G.nodes.card := by
  have hmem := (C124_free G a S hs).1
  rw [← List.toFinset_card_of_nodup hs.coherent.parts_wf, ← Finset.prod_const, ← Finset.card_pi]
  symm
  refine Finset.card_bij (fun f _ v => if h : v ∈ G.nodes then some (f v h) else none) ?_ ?_ ?_
  · intro f hf
    rw [hmem]
    refine ⟨fun v hv => ⟨f v hv, List.mem_toFinset.1 (Finset.mem_pi.1 hf v hv), dif_pos hv⟩, fun v hv => dif_neg hv⟩
  · intro f _ g _ h
    funext v hv
    have := congrFun h v
    simp only [dif_pos hv] at this
    exact Option.some.inj this
  · intro m hm
    obtain ⟨h1, h2⟩ := (hmem m).1 hm
    choose f hf hfm using h1
    refine ⟨f, Finset.mem_pi.2 (fun v hv => List.mem_toFinset.2 (hf v hv)), ?_⟩
    funext v
    by_cases hv : v ∈ G.nodes
    · rw [dif_pos hv, hfm v hv]
    · rw [dif_neg hv, h2 v hv]

/-- **C124** (without constraints) A long run without constraints ends in each of the `k ^ n` labellings of the `n` nodes with `k` labels with nearly the
same probability, whatever the initial plan is. -/
theorem C124_uniform (ha : a.Coherent) (hcov : a.Covers G.nodes) (hne : G.nodes.Nonempty) (m : V → Option P)
    (hm : (∀ v ∈ G.nodes, ∃ p ∈ a.parts.keys, m v = some p) ∧ ∀ v, v ∉ G.nodes → m v = none) (δ : ℚ) (hδ : 0 < δ) :
    ∃ n0 : ℕ, ∀ n, n0 ≤ n → ∃ f0 : ℕ, ∀ f, f0 ≤ f → ∀ N, 0 < N → G.nodes.card ∣ N → a.parts.keys.length ∣ N →
      ∀ cs, Decides (fun _ : V → Option P => true) cs → ∀ ch : Chain Tape (PlanState V P), ch.isValid = cs → ∀ body L, n + 1 < body → n * (f * 2) ≤ L →
        |avg N L (fun t => listValue (fun x => x.plan.mapping.get?) (fun l => if l.getLast? = some m then 1 else 0)
          (ch.list (flipChain (anyMove N G) alwaysAccept ⟨a, none⟩ (n + 1 : ℕ)) f body t)) - 1 / (a.parts.keys.length : ℚ) ^ G.nodes.card| ≤ δ := by
  obtain ⟨S, hs⟩ := C124_applies (W := fun _ => true) ha hcov hne rfl
  have hmS := ((C124_free G a S hs).1 m).2 hm
  have h := C124_last G (fun _ => true) a S hs m hmS δ hδ
  rw [(C124_free G a S hs).2 m hmS, C124_count G a S hs] at h
  push_cast at h
  exact h

end runs

/-- **C124** (not equally) Two plans of four nodes in a row that can be reached from each other through plans without an empty district have different
shares: where a district has a single node, that node must not leave it. -/
theorem C124_not_equal : ∃ S, AnySetting walkPath noneEmpty walkA S ∧ walkB.mapping.get? ∈ S ∧
    (goodPairs walkPath walkA.parts.keys.toFinset noneEmpty walkA.mapping.get?).card = 7 ∧
    (goodPairs walkPath walkA.parts.keys.toFinset noneEmpty walkB.mapping.get?).card = 8 := by
  obtain ⟨S, hS⟩ := C124_applies (W := noneEmpty) (G := walkPath) walk_coherent.1 (a := walkA) (by intro v; revert v; decide +kernel) ⟨0, by decide⟩ (by decide +kernel)
  exact ⟨S, hS, hS.closed hS.initial ⟨(1, 0), by decide +kernel, by decide +kernel⟩, by decide +kernel, by decide +kernel⟩

/-- the plans that C124_uniform speaks about, one with empty districts -/
example : (∀ v ∈ walkPath.nodes, ∃ p ∈ walkA.parts.keys, (fun _ : Fin 4 => some (1 : Fin 2)) v = some p) ∧ walkA.Coherent ∧ walkPath.nodes.Nonempty :=
  ⟨by decide +kernel, walk_coherent.1, ⟨0, by decide⟩⟩

/-- a plan of three districts in a row, without constraints: the setting exists -/
example : ∃ S, AnySetting exLine (fun _ => true) linePlan S := C124_applies linePlan_coherent linePlan_covers ⟨0, by decide⟩ rfl

/-- the constraints of such a chain decide as in the theorems -/
example : Decides noneEmpty (chainAt walkA noneEmpty).isValid := chainAt_decides walkA noneEmpty

end GC

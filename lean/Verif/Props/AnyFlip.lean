import Verif.Props.Flips
import Verif.Lemmas.Tape

/-!
# `propose_any_node_flip` (C123)
-/

set_option linter.unusedSectionVars false
set_option autoImplicit false

namespace GC

variable {V P S X : Type} [LinearOrder V] [LinearOrder P]

/-! ### What it does to partition objects -/

theorem anyNodeFlip_ok {R : Rand S} (hR : R.Valid) {G : Graph V} {a : Assignment V P} {w w' : S} {flips : Dict V P}
    (h : anyNodeFlip R G a w = (.ok flips, w')) : ∃ n ∈ G.nodes, ∃ l ∈ a.parts.keys, flips = ⟨[(n, l)]⟩ := by
  unfold anyNodeFlip at h
  obtain ⟨n, w1, h1, g1⟩ := M.bind_eq_ok h
  obtain ⟨l, w2, h2, g2⟩ := M.bind_eq_ok g1
  cases g2
  refine ⟨n, ?_, l, ?_, rfl⟩
  · by_cases hn : iter G.nodes = []
    · rw [hn] at h1
      obtain ⟨s', e⟩ := hR.choice_nil (α := V) w
      rw [e] at h1; cases h1
    · obtain ⟨x, hx, s', e⟩ := hR.choice_mem _ w hn
      rw [e] at h1; cases h1
      exact mem_iter.1 hx
  · by_cases hn : a.parts.keys = []
    · rw [hn] at h2
      obtain ⟨s', e⟩ := hR.choice_nil (α := P) w1
      rw [e] at h2; cases h2
    · obtain ⟨x, hx, s', e⟩ := hR.choice_mem _ w1 hn
      rw [e] at h2; cases h2
      exact hx

theorem proposeAnyNodeFlip_ok {R : Rand X} {st q : ℕ} {s s1 : World V P X} (h : proposeAnyNodeFlip R st s = (.ok q, s1)) :
    ∃ v flips w' F, s.1.frame.view st = some v ∧ anyNodeFlip R s.1.frame.data.graph v.assignment s.2 = (.ok flips, w') ∧
      s.1.frame.flip st flips = .ok F ∧ q = s.1.frame.objs.length ∧ s1.1 = ⟨F, s.1.caches⟩ := by
  unfold proposeAnyNodeFlip at h
  obtain ⟨v, w1, h1, g1⟩ := M.bind_eq_ok h
  obtain ⟨hw1, hv⟩ := viewObj_eq h1
  obtain ⟨w, w2, h2, g2⟩ := M.bind_eq_ok g1
  have hw2 : w = s ∧ w2 = s := by rw [← hw1]; cases h2; exact ⟨rfl, rfl⟩
  rw [hw2.1, hw2.2] at g2
  obtain ⟨flips, w3, h3, g3⟩ := M.bind_eq_ok g2
  obtain ⟨h4, h5⟩ := M.onRest_eq h3
  rcases flipObj_eq g3 with ⟨F, k1, k2, k3⟩ | ⟨e, k1, -⟩
  · rw [h5] at k1 k2 k3
    cases k2
    exact ⟨v, flips, w3.2, F, (hv v).1 rfl, h4, k1, rfl, k3⟩
  · cases k1

/-- **C123** `propose_any_node_flip` returns a new child of the partition, in which one node of the graph is in one of the districts of the
partition and every other node where it was; the labels of the districts stay the same. -/
theorem C123_child (R : Rand X) (hR : R.Valid) (st q : ℕ) (s s1 : World V P X) (hs : HeapInv s.1) (v : View V P)
    (hv : s.1.frame.view st = some v) (h : proposeAnyNodeFlip R st s = (.ok q, s1)) :
    ∃ w, s1.1.frame.view q = some w ∧ w.parent = some st ∧ (∀ v', s.1.frame.view q ≠ some v') ∧
      w.assignment.parts.keys = v.assignment.parts.keys ∧
      ∃ n ∈ s.1.frame.data.graph.nodes, ∃ l ∈ v.assignment.parts.keys, MovedTo v.assignment w.assignment n l := by
  obtain ⟨v', flips, w', F, h1, h2, h3, h4, h5⟩ := proposeAnyNodeFlip_ok h
  rw [hv] at h1; cases h1
  obtain ⟨n, hn, l, hl, rfl⟩ := anyNodeFlip_ok hR h2
  obtain ⟨-, -, v3, b, hv3, hb, w, hw, hwb, hwp⟩ := hs.frame.flip (one_wf n l) h3
  rw [hv] at hv3; cases hv3
  refine ⟨w, by rw [h5, h4]; exact hw, hwp, ?_, ?_, n, hn, l, hl, ?_⟩
  · intro v' hv'
    have := Frame.lt_of_view hv'
    omega
  · rw [hwb]; exact (flip_ok (hs.frame.coherent _ _ hv) (one_wf n l) hb).keys
  · rw [hwb]; exact movedTo_of_flip (hs.frame.coherent _ _ hv) hb

/-- it is a proposal of the kind that the theorems about chains require -/
theorem anyFlipProposal (R : Rand X) (hR : R.Valid) : FlipProposal (proposeAnyNodeFlip R : ℕ → M (World V P X) ℕ) := by
  constructor
  · intro st s q s1 h
    obtain ⟨v, flips, w', F, h1, h2, h3, h4, h5⟩ := proposeAnyNodeFlip_ok h
    obtain ⟨n, hn, l, hl, rfl⟩ := anyNodeFlip_ok hR h2
    exact ⟨[], by simp, .inr ⟨_, F, one_wf n l, h3, h5, h4⟩⟩
  · intro st s e s1 h
    refine ⟨[], by simp, ?_⟩
    show s1.1 = s.1
    unfold proposeAnyNodeFlip at h
    rcases M.bind_eq_error h with h1 | ⟨v, w1, h1, g1⟩
    · rw [(viewObj_eq h1).1]
    obtain ⟨hw1, hv⟩ := viewObj_eq h1
    rcases M.bind_eq_error g1 with h2 | ⟨w, w2, h2, g2⟩
    · cases h2
    have hw2 : w = s ∧ w2 = s := by rw [← hw1]; cases h2; exact ⟨rfl, rfl⟩
    rw [hw2.1, hw2.2] at g2
    rcases M.bind_eq_error g2 with h3 | ⟨flips, w3, h3, g3⟩
    · exact (M.onRest_eq h3).2
    · rcases flipObj_eq g3 with ⟨F, -, k2, -⟩ | ⟨e, -, k2⟩
      · cases k2
      · rw [k2]; exact (M.onRest_eq h3).2

/-! ### Probabilities -/

/-- `propose_any_node_flip` (proposals/proposals.py:8-22) on plans: the assignment of `partition.flip({node: newpart})` -/
def anyStep (N : ℕ) (G : Graph V) (a : Assignment V P) : M Tape (Assignment V P) := do
  let flips ← anyNodeFlip (uniRand N) G a
  M.lift (a.flip flips)

theorem flip_one {a : Assignment V P} (ha : a.Coherent) {n : V} {l : P} (hn : n ∈ a.mapping.keys) (hl : l ∈ a.parts.keys) :
    ∃ b, a.flip ⟨[(n, l)]⟩ = .ok b ∧ b.Coherent ∧ b.parts.keys = a.parts.keys ∧ MovedTo a b n l := by
  rcases hc : a.flip ⟨[(n, l)]⟩ with e | b
  · exfalso
    obtain ⟨-, hbad⟩ := (C03_flip_raises_iff a ha _ (one_wf n l) e).1 hc
    rcases hbad with ⟨x, hx, hx'⟩ | ⟨x, hx, hx'⟩
    · simp only [Dict.keys, List.map_cons, List.map_nil, List.mem_singleton] at hx
      subst hx; exact hx' hn
    · simp only [Dict.values, List.map_cons, List.map_nil, List.mem_singleton] at hx
      subst hx; exact hx' hl
  · have hs := flip_ok ha (one_wf n l) hc
    exact ⟨b, rfl, hs.coherent, hs.keys, movedTo_of_flip ha hc⟩

/-- the proposed plan assigns every node of the graph as plan `c` does -/
def ProposesPlan (G : Graph V) (c : Assignment V P) (r : Py (Assignment V P)) : Prop :=
  match r with
  | .ok b => ∀ x ∈ G.nodes, b.mapping.get? x = c.mapping.get? x
  | .error _ => False

instance (G : Graph V) (c : Assignment V P) : DecidablePred (ProposesPlan G c) := fun r => by
  unfold ProposesPlan
  cases r <;> infer_instance

/-- the nodes that two plans assign to different districts -/
def movedNodes (G : Graph V) (a b : Assignment V P) : Finset V := G.nodes.filter (fun x => a.mapping.get? x ≠ b.mapping.get? x)

theorem movedNodes_comm (G : Graph V) (a b : Assignment V P) : movedNodes G a b = movedNodes G b a := by
  unfold movedNodes
  exact Finset.filter_congr (fun x _ => by rw [ne_comm])

theorem sum_one_of_nodup {α : Type} [DecidableEq α] (l : List α) (hl : l.Nodup) (y : α) (hy : y ∈ l) (c : ℚ) :
    (l.map (fun x => if x = y then c else 0)).sum = c := by
  induction l with
  | nil => cases hy
  | cons z l ih =>
    rw [List.nodup_cons] at hl
    rw [List.map_cons, List.sum_cons]
    rcases List.mem_cons.1 hy with rfl | hy'
    · have : (l.map (fun x => if x = y then c else 0)).sum = 0 := by
        apply List.sum_eq_zero
        intro q hq
        obtain ⟨x, hx, rfl⟩ := List.mem_map.1 hq
        rw [if_neg (by rintro rfl; exact hl.1 hx)]
      rw [if_pos rfl, this, add_zero]
    · rw [if_neg (by rintro rfl; exact hl.1 hy'), ih hl.2 hy', zero_add]

/-- which choices of a node and a district lead to the plan `c` -/
theorem flip_hits {G : Graph V} {a c : Assignment V P} (ha : a.Coherent) (hcov : a.Covers G.nodes) (hc : c.Covers G.nodes) {n : V} {l : P}
    (hn : n ∈ G.nodes) (hl : l ∈ a.parts.keys) :
    ProposesPlan G c (a.flip ⟨[(n, l)]⟩) ↔ movedNodes G a c ⊆ {n} ∧ c.mapping.get? n = some l := by
  obtain ⟨b, hb, -, -, hm⟩ := flip_one ha ((hcov n).2 hn) hl
  rw [hb]
  show (∀ x ∈ G.nodes, b.mapping.get? x = c.mapping.get? x) ↔ _
  constructor
  · intro h
    refine ⟨fun x hx => ?_, ?_⟩
    · obtain ⟨hx1, hx2⟩ := Finset.mem_filter.1 hx
      rw [Finset.mem_singleton]
      by_contra hne
      refine hx2 ?_
      rw [← h x hx1, hm, if_neg hne]
    · rw [← h n hn, hm, if_pos rfl]
  · rintro ⟨h1, h2⟩ x hx
    rw [hm]
    by_cases hxn : x = n
    · subst hxn; rw [if_pos rfl, h2]
    · rw [if_neg hxn]
      by_contra hne
      exact hxn (Finset.mem_singleton.1 (h1 (Finset.mem_filter.2 ⟨hx, hne⟩)))

/-- **C123** The probability that `propose_any_node_flip` proposes plan `c` from plan `a`, where both have the same district labels (`k` of them) and
the graph has `n` nodes: one in `k` if the plans are the same, one in `n * k` if they differ in one node, zero otherwise. -/
theorem C123_chance (N L : ℕ) (hN : 0 < N) (G : Graph V) (a c : Assignment V P) (ha : a.Coherent) (hcov : a.Covers G.nodes) (hc : c.Coherent)
    (hcc : c.Covers G.nodes) (hkeys : ∀ p, p ∈ c.parts.keys ↔ p ∈ a.parts.keys) (hne : G.nodes.Nonempty)
    (hn : G.nodes.card ∣ N) (hk : a.parts.keys.length ∣ N) :
    prob N (L + 2) (anyStep N G a) (ProposesPlan G c) =
      if (movedNodes G a c).card = 0 then 1 / (a.parts.keys.length : ℚ)
      else if (movedNodes G a c).card = 1 then 1 / ((G.nodes.card : ℚ) * a.parts.keys.length) else 0 := by
  obtain ⟨x0, hx0⟩ := hne
  have hcl : ∀ x ∈ G.nodes, ∃ l, c.mapping.get? x = some l ∧ l ∈ a.parts.keys := by
    intro x hx
    obtain ⟨l, hl⟩ := Dict.mem_keys_iff.1 ((hcc x).2 hx)
    exact ⟨l, hl, (hkeys l).1 (hc.complete _ _ hl)⟩
  obtain ⟨l0, -, hl0⟩ := hcl x0 hx0
  have hiter : iter G.nodes ≠ [] := List.ne_nil_of_mem (mem_iter.2 hx0)
  have hkne : a.parts.keys ≠ [] := List.ne_nil_of_mem hl0
  have hK : (a.parts.keys.length : ℚ) ≠ 0 := by
    have := List.length_pos_iff.2 hkne
    exact_mod_cast this.ne'
  have hV : (G.nodes.card : ℚ) ≠ 0 := by
    have := Finset.card_pos.2 ⟨x0, hx0⟩
    exact_mod_cast this.ne'
  have hstep : anyStep N G a = (uniRand N).choice (iter G.nodes) >>= fun n => (uniRand N).choice a.parts.keys >>= fun l => M.lift (a.flip ⟨[(n, l)]⟩) := by
    funext t
    unfold anyStep anyNodeFlip
    show M.bind (M.bind _ _) _ t = M.bind _ _ t
    unfold M.bind
    rcases (uniRand N).choice (iter G.nodes) t with ⟨e | n, t1⟩
    · rfl
    · show _ = M.bind _ _ t1
      unfold M.bind
      have : ∀ t1, (do let newpart ← (uniRand N).choice a.parts.keys; pure (⟨[(n, newpart)]⟩ : Dict V P) : M Tape (Dict V P)) t1 =
          M.bind ((uniRand N).choice a.parts.keys) (fun l => pure ⟨[(n, l)]⟩) t1 := fun _ => rfl
      simp only [this]
      unfold M.bind
      rcases (uniRand N).choice a.parts.keys t1 with ⟨e | l, t2⟩ <;> rfl
  have hinner : ∀ n ∈ G.nodes, avg N (L + 1) (fun t => if ProposesPlan G c
      (((uniRand N).choice a.parts.keys >>= fun l => M.lift (a.flip ⟨[(n, l)]⟩)) t).1 then 1 else 0) =
      if movedNodes G a c ⊆ {n} then 1 / (a.parts.keys.length : ℚ) else 0 := by
    intro n hn'
    rw [avg_choice hN L a.parts.keys hkne hk (fun l => M.lift (a.flip ⟨[(n, l)]⟩)) (fun r => if ProposesPlan G c r then 1 else 0)]
    obtain ⟨l1, hl1, hl1'⟩ := hcl n hn'
    have : a.parts.keys.map (fun l => avg N L (fun t => if ProposesPlan G c ((M.lift (a.flip ⟨[(n, l)]⟩) : M Tape (Assignment V P)) t).1 then (1 : ℚ) else 0)) =
        a.parts.keys.map (fun l => if l = l1 then (if movedNodes G a c ⊆ {n} then (1 : ℚ) else 0) else 0) := by
      refine List.map_congr_left (fun l hl => ?_)
      have e1 : ∀ t : Tape, ((M.lift (a.flip ⟨[(n, l)]⟩) : M Tape (Assignment V P)) t).1 = a.flip ⟨[(n, l)]⟩ := fun _ => rfl
      simp only [e1, flip_hits ha hcov hcc hn' hl, hl1, Option.some.injEq]
      rw [avg_const hN]
      by_cases h1 : l = l1
      · subst h1; simp
      · rw [if_neg h1, if_neg]
        rintro ⟨-, h⟩
        exact h1 h.symm
    rw [this, sum_one_of_nodup _ ha.parts_wf l1 hl1']
    split_ifs <;> simp
  unfold prob
  rw [hstep]
  rw [avg_choice hN (L + 1) (iter G.nodes) hiter (by rw [length_iter]; exact hn) _ (fun r => if ProposesPlan G c r then 1 else 0)]
  rw [List.map_congr_left (fun n hn' => hinner n (mem_iter.1 hn')), length_iter]
  by_cases h0 : (movedNodes G a c).card = 0
  · rw [if_pos h0]
    rw [Finset.card_eq_zero] at h0
    simp only [h0, Finset.empty_subset, if_true, List.map_const', List.sum_replicate, length_iter, nsmul_eq_mul]
    field_simp
  rw [if_neg h0]
  by_cases h1 : (movedNodes G a c).card = 1
  · rw [if_pos h1]
    obtain ⟨x, hx⟩ := Finset.card_eq_one.1 h1
    have hxm : x ∈ movedNodes G a c := by rw [hx]; exact Finset.mem_singleton_self x
    have hxn : x ∈ G.nodes := (Finset.mem_filter.1 hxm).1
    have : (iter G.nodes).map (fun n => if movedNodes G a c ⊆ {n} then 1 / (a.parts.keys.length : ℚ) else 0) =
        (iter G.nodes).map (fun n => if n = x then 1 / (a.parts.keys.length : ℚ) else 0) := by
      refine List.map_congr_left (fun n _ => ?_)
      rw [hx]
      simp only [Finset.singleton_subset_iff, Finset.mem_singleton, eq_comm]
    rw [this, sum_one_of_nodup _ (nodup_iter _) x (mem_iter.2 hxn)]
    field_simp
  · rw [if_neg h1]
    rw [List.sum_eq_zero, zero_div]
    intro q hq
    obtain ⟨n, -, rfl⟩ := List.mem_map.1 hq
    rw [if_neg]
    intro hsub
    have := Finset.card_le_card hsub
    rw [Finset.card_singleton] at this
    omega

/-- **C123** The proposal is symmetric: from `a` it proposes `c` exactly as often as it proposes `a` from `c`, also when that empties a district. -/
theorem C123_symmetric (N L : ℕ) (hN : 0 < N) (G : Graph V) (a c : Assignment V P) (ha : a.Coherent) (hcov : a.Covers G.nodes) (hc : c.Coherent)
    (hcc : c.Covers G.nodes) (hkeys : ∀ p, p ∈ c.parts.keys ↔ p ∈ a.parts.keys) (hne : G.nodes.Nonempty)
    (hn : G.nodes.card ∣ N) (hk : a.parts.keys.length ∣ N) :
    prob N (L + 2) (anyStep N G a) (ProposesPlan G c) = prob N (L + 2) (anyStep N G c) (ProposesPlan G a) := by
  have hlen : c.parts.keys.length = a.parts.keys.length :=
    ((List.perm_ext_iff_of_nodup hc.parts_wf ha.parts_wf).2 hkeys).length_eq
  rw [C123_chance N L hN G a c ha hcov hc hcc hkeys hne hn hk,
    C123_chance N L hN G c a hc hcc ha hcov (fun p => (hkeys p).symm) hne hn (by rw [hlen]; exact hk), movedNodes_comm G c a, hlen]

/-- a plan that `propose_any_node_flip` can propose -/
def AnyStep (N : ℕ) (G : Graph V) (a b : Assignment V P) : Prop := ∃ t t', anyStep N G a t = (.ok b, t')

theorem anyStep_hit (N : ℕ) {G : Graph V} {a b : Assignment V P} {n : V} {l : P} (hn : n ∈ G.nodes) (hl : l ∈ a.parts.keys)
    (hb : a.flip ⟨[(n, l)]⟩ = .ok b) : AnyStep N G a b := by
  have hit : ∀ {α : Type} {l : List α} {x : α}, x ∈ l → ∃ i, ∀ t, (uniRand N).choice l (i :: t) = (.ok x, t) := by
    intro α l x hx
    cases l with
    | nil => cases hx
    | cons y l =>
      obtain ⟨i, hi, rfl⟩ := List.mem_iff_getElem.1 hx
      refine ⟨i, fun t => ?_⟩
      show ((Except.ok ((y :: l)[i % (l.length + 1)]'_) : Py α), t) = _
      have : i % (l.length + 1) = i := Nat.mod_eq_of_lt hi
      simp only [this]
  obtain ⟨i, hi⟩ := hit (mem_iter.2 hn)
  obtain ⟨j, hj⟩ := hit hl
  refine ⟨[i, j], [], ?_⟩
  unfold anyStep anyNodeFlip
  refine (M.bind_ok (M.bind_ok (hi [j]) |>.trans (M.bind_ok (hj [])))).trans ?_
  unfold M.lift
  rw [hb]

/-- **C123** Every plan can be reached from every other plan with the same district labels, in as many steps as there are nodes to move. -/
theorem C123_reaches (N : ℕ) (G : Graph V) (a c : Assignment V P) (ha : a.Coherent) (hcov : a.Covers G.nodes) (hc : c.Coherent)
    (hcc : c.Covers G.nodes) (hkeys : ∀ p, p ∈ c.parts.keys ↔ p ∈ a.parts.keys) :
    ∃ path : List (Assignment V P), path.length = (movedNodes G a c).card ∧ List.IsChain (AnyStep N G) (a :: path) ∧
      ∀ x, (path.getLastD a).mapping.get? x = c.mapping.get? x := by
  induction hm : (movedNodes G a c).card generalizing a with
  | zero =>
    refine ⟨[], rfl, by simp, fun x => ?_⟩
    rw [Finset.card_eq_zero] at hm
    show a.mapping.get? x = _
    by_cases hx : x ∈ G.nodes
    · by_contra hne
      have : x ∈ movedNodes G a c := Finset.mem_filter.2 ⟨hx, hne⟩
      rw [hm] at this; cases this
    · rw [Dict.get?_eq_none_iff.2 (fun h => hx ((hcov x).1 h)), Dict.get?_eq_none_iff.2 (fun h => hx ((hcc x).1 h))]
  | succ m ih =>
    obtain ⟨n, hn⟩ := Finset.card_pos.1 (show 0 < (movedNodes G a c).card by omega)
    obtain ⟨hn1, hn2⟩ := Finset.mem_filter.1 hn
    obtain ⟨l, hl⟩ := Dict.mem_keys_iff.1 ((hcc n).2 hn1)
    have hla := (hkeys l).1 (hc.complete _ _ hl)
    obtain ⟨b, hb, hbc, hbk, hbm⟩ := flip_one ha ((hcov n).2 hn1) hla
    have hbcov : b.Covers G.nodes := by
      intro x
      rw [← hcov x, Dict.mem_keys_iff, Dict.mem_keys_iff]
      by_cases hx : x = n
      · subst hx
        have := Dict.mem_keys_iff.1 ((hcov x).2 hn1)
        simp [hbm x, this]
      · rw [hbm, if_neg hx]
    have hmv : movedNodes G b c = (movedNodes G a c).erase n := by
      ext x
      simp only [movedNodes, Finset.mem_filter, Finset.mem_erase, hbm x]
      by_cases hx : x = n
      · subst hx; simp [hl]
      · simp [hx]
    obtain ⟨path, h1, h2, h3⟩ := ih b hbc hbcov (fun p => by rw [hbk]; exact hkeys p) (by rw [hmv, Finset.card_erase_of_mem hn, hm]; rfl)
    refine ⟨b :: path, by rw [List.length_cons, h1], List.IsChain.cons_cons (anyStep_hit N hn1 hla hb) h2, fun x => ?_⟩
    rw [List.getLastD_cons]
    exact h3 x

/-- The errors of `propose_any_node_flip`: `IndexError` on a graph without nodes, and none otherwise. -/
theorem C123_total (R : Rand X) (hR : R.Valid) (st : ℕ) (s : World V P X) (hs : HeapInv s.1) (v : View V P)
    (hv : s.1.frame.view st = some v) :
    (s.1.frame.data.graph.nodes = ∅ → (proposeAnyNodeFlip R st s).1 = .error .indexError) ∧
    (s.1.frame.data.graph.nodes.Nonempty → ∃ q s1, proposeAnyNodeFlip R st s = (.ok q, s1)) := by
  have hview : (viewObj st s : Py (View V P) × World V P X) = (.ok v, s) := by unfold viewObj; rw [hv]
  have hred : proposeAnyNodeFlip R st s = (M.onRest (anyNodeFlip R s.1.frame.data.graph v.assignment) >>= fun flips => flipObj st flips) s := by
    unfold proposeAnyNodeFlip
    exact M.bind_ok hview
  rw [hred]
  constructor
  · intro h0
    have hnil : iter s.1.frame.data.graph.nodes = [] := List.eq_nil_iff_forall_not_mem.2 (fun x hx => by
      have := mem_iter.1 hx; rw [h0] at this; cases this)
    obtain ⟨w', e⟩ := hR.choice_nil (α := V) s.2
    have h1 : anyNodeFlip R s.1.frame.data.graph v.assignment s.2 = (.error .indexError, w') := by
      unfold anyNodeFlip
      rw [hnil]
      exact M.bind_error e
    have h2 : (M.onRest (anyNodeFlip R s.1.frame.data.graph v.assignment) : M (World V P X) (Dict V P)) s = (.error .indexError, (s.1, w')) := by
      unfold M.onRest
      rw [h1]
    rw [M.bind_error h2]
  · rintro ⟨x, hx⟩
    have hcov := hs.frame.covers _ _ hv
    have hcoh := hs.frame.coherent _ _ hv
    obtain ⟨p, hp⟩ := Dict.mem_keys_iff.1 ((hcov x).2 hx)
    obtain ⟨n, hn, w1, e1⟩ := hR.choice_mem (iter s.1.frame.data.graph.nodes) s.2 (List.ne_nil_of_mem (mem_iter.2 hx))
    obtain ⟨l, hl, w2, e2⟩ := hR.choice_mem v.assignment.parts.keys w1 (List.ne_nil_of_mem (hcoh.complete _ _ hp))
    have h1 : anyNodeFlip R s.1.frame.data.graph v.assignment s.2 = (.ok ⟨[(n, l)]⟩, w2) := by
      unfold anyNodeFlip
      exact (M.bind_ok e1).trans (M.bind_ok e2)
    have h2 : (M.onRest (anyNodeFlip R s.1.frame.data.graph v.assignment) : M (World V P X) (Dict V P)) s = (.ok ⟨[(n, l)]⟩, (s.1, w2)) := by
      unfold M.onRest
      rw [h1]
    rw [M.bind_ok h2]
    obtain ⟨b, hb, -⟩ := flip_one hcoh ((hcov n).2 (mem_iter.1 hn)) hl
    rcases hF : s.1.frame.flip st ⟨[(n, l)]⟩ with e | F
    · exfalso
      obtain ⟨flows, ef, g, -⟩ := (flip_frame hs.frame (one_wf n l) hv).2 b hb
      rw [hF] at g
      cases g
    · refine ⟨s.1.frame.objs.length, (⟨F, s.1.caches⟩, w2), ?_⟩
      unfold flipObj
      simp only [hF]

/-- an example run: node 5, far from the boundary, is moved to district 1 -/
example : flipRun (proposeAnyNodeFlip tapeRand) [5, 0] = some (1, some [(0, 1), (1, 1), (2, 2), (3, 2), (4, 3), (5, 1)]) := by decide +kernel

/-- the probabilities of an example: a neighbouring plan, with three districts of two nodes in a row -/
example : ∃ b, linePlan.flip ⟨[(5, 1)]⟩ = .ok b ∧ prob 6 2 (anyStep 6 exLine linePlan) (ProposesPlan exLine b) = 1 / 18 ∧
    prob 6 2 (anyStep 6 exLine linePlan) (ProposesPlan exLine linePlan) = 1 / 3 := by
  obtain ⟨b, hb, hbc, hbk, hbm⟩ := flip_one linePlan_coherent (n := 5) (l := 1) (by decide) (by decide)
  have hbcov : b.Covers exLine.nodes := by
    intro x
    rw [← linePlan_covers x, Dict.mem_keys_iff, Dict.mem_keys_iff]
    by_cases hx : x = 5
    · subst hx; rw [hbm, if_pos rfl]; exact ⟨fun _ => ⟨3, rfl⟩, fun _ => ⟨1, rfl⟩⟩
    · rw [hbm, if_neg hx]
  have hmv : movedNodes exLine linePlan b = {5} := by
    ext x
    simp only [movedNodes, Finset.mem_filter, hbm x, Finset.mem_singleton]
    by_cases hx : x = 5
    · subst hx; simp; decide
    · simp [hx]
  have hmv0 : movedNodes exLine linePlan linePlan = ∅ := by decide
  refine ⟨b, hb, ?_, ?_⟩
  · rw [C123_chance 6 0 (by decide) exLine linePlan b linePlan_coherent linePlan_covers hbc hbcov (fun p => by rw [hbk]) ⟨0, by decide⟩ (by decide) (by decide), hmv]
    rw [if_neg (by decide), if_pos (by decide), show exLine.nodes.card = 6 by decide, show linePlan.parts.keys.length = 3 by decide]
    norm_num
  · rw [C123_chance 6 0 (by decide) exLine linePlan linePlan linePlan_coherent linePlan_covers linePlan_coherent linePlan_covers (fun p => Iff.rfl) ⟨0, by decide⟩
      (by decide) (by decide), hmv0, if_pos (by decide), show linePlan.parts.keys.length = 3 by decide]
    norm_num

end GC

import Verif.Model.Flips
import Verif.Props.Recom
import Verif.Props.TreeCuts
import Verif.Props.RecomFail

/-!
# Flip proposals (C45, C57)
-/

set_option linter.unusedSectionVars false
set_option autoImplicit false

namespace GC

variable {V P S X : Type} [LinearOrder V] [LinearOrder P]

/-- `v` can be moved to district `q`, which is not its own and contains one of its neighbours -/
def CanMove (G : Graph V) (m : Dict V P) (v : V) (q : P) : Prop :=
  (∃ p, m.get? v = some p ∧ p ≠ q) ∧ ∃ u, G.Adj v u ∧ m.get? u = some q

/-- plan `b` is plan `a` with `v` moved to district `q` -/
def MovedTo (a b : Assignment V P) (v : V) (q : P) : Prop :=
  ∀ x, b.mapping.get? x = if x = v then some q else a.mapping.get? x

/-- `b` differs from `a` in one node, which is moved to a different district containing one of its neighbours -/
def BoundaryMove (G : Graph V) (a b : Assignment V P) : Prop := ∃ v q, CanMove G a.mapping v q ∧ MovedTo a b v q

/-! ### The flips -/

theorem chooseEnd_ok {R : Rand S} (hR : R.Valid) {e : V × V} {w w' : S} {x : V × V} (h : chooseEnd R e w = (.ok x, w')) :
    x = e ∨ x = (e.2, e.1) := by
  unfold chooseEnd at h
  obtain ⟨i, w1, h1, h2⟩ := M.bind_eq_ok h
  by_cases hi : i = 0
  · rw [if_pos hi] at h2; cases h2; exact .inl rfl
  · rw [if_neg hi] at h2; cases h2; exact .inr rfl

theorem chooseEnd_no_error {R : Rand S} (hR : R.Valid) {e : V × V} {w w' : S} {err : PyErr} :
    chooseEnd R e w ≠ (.error err, w') := by
  intro h
  unfold chooseEnd at h
  rcases M.bind_eq_error h with h1 | ⟨i, w1, h1, h2⟩
  · obtain ⟨x, -, s', h'⟩ := hR.choice_mem [(0 : ℕ), 1] w (by simp)
    rw [h'] at h1; cases h1
  · cases h2

/-- the ends of a cut edge, in either order -/
theorem canMove_of_cut {G : Graph V} {m : Dict V P} {e x : V × V} {p : P} (he : e ∈ cutsOf G m) (hx : x = e ∨ x = (e.2, e.1))
    (hcov : ∀ v u, G.Adj v u → ∃ q, m.get? v = some q) (hp : m.get? x.2 = some p) : CanMove G m x.1 p := by
  obtain ⟨⟨-, hadj⟩, hne⟩ := mem_cutsOf.1 he
  have h1 : G.Adj x.1 x.2 := by rcases hx with rfl | rfl; exacts [hadj, hadj.symm]
  have h2 : m.get? x.1 ≠ m.get? x.2 := by rcases hx with rfl | rfl; exacts [hne, fun h => hne h.symm]
  obtain ⟨q, hq⟩ := hcov _ _ h1
  refine ⟨⟨q, hq, ?_⟩, x.2, h1, hp⟩
  rintro rfl
  exact h2 (by rw [hq, hp])

/-- a cut edge for every possible move -/
theorem cut_of_canMove {G : Graph V} {m : Dict V P} {v : V} {q : P} (h : CanMove G m v q) :
    ∃ e ∈ cutsOf G m, ∃ x : V × V, (x = e ∨ x = (e.2, e.1)) ∧ x.1 = v ∧ m.get? x.2 = some q := by
  obtain ⟨⟨p, hp, hpq⟩, u, hadj, hu⟩ := h
  have hne : m.get? v ≠ m.get? u := by rw [hp, hu]; intro h; exact hpq (Option.some.inj h)
  rcases le_total v u with hle | hle
  · exact ⟨(v, u), mem_cutsOf.2 ⟨⟨hle, hadj⟩, hne⟩, (v, u), .inl rfl, rfl, hu⟩
  · exact ⟨(u, v), mem_cutsOf.2 ⟨⟨hle, hadj.symm⟩, fun h => hne h.symm⟩, (v, u), .inr rfl, rfl, hu⟩

theorem get?_one (v : V) (q : P) (x : V) : (⟨[(v, q)]⟩ : Dict V P).get? x = if x = v then some q else none := by
  unfold Dict.get?
  by_cases h : x = v
  · subst h; simp
  · have : ¬ v = x := fun h' => h h'.symm
    simp [h, this]

theorem one_wf (v : V) (q : P) : (⟨[(v, q)]⟩ : Dict V P).WF := by
  unfold Dict.WF Dict.keys; simp

theorem movedTo_of_flip {a b : Assignment V P} (ha : a.Coherent) {v : V} {q : P} (h : a.flip ⟨[(v, q)]⟩ = .ok b) :
    MovedTo a b v q := by
  intro x
  rw [(flip_ok ha (one_wf v q) h).get?, get?_one]
  by_cases hx : x = v
  · simp [hx]
  · simp [hx]

section
variable {G : Graph V} {a : Assignment V P}

theorem covers_adj (hG : G.WF) (hcov : a.Covers G.nodes) : ∀ v u, G.Adj v u → ∃ q, a.mapping.get? v = some q := by
  intro v u h
  exact Dict.mem_keys_iff.1 ((hcov v).2 (hG.mem_of_adj h).1)

theorem randomFlip_ok {R : Rand S} (hR : R.Valid) (hG : G.WF) (hcov : a.Covers G.nodes) {w w' : S} {r : Option (Dict V P)}
    (h : randomFlip R a (cutsOf G a.mapping) w = (.ok r, w')) :
    (r = none ∧ cutsOf G a.mapping = ∅) ∨ ∃ v q, r = some ⟨[(v, q)]⟩ ∧ CanMove G a.mapping v q := by
  unfold randomFlip at h
  by_cases hc : cutsOf G a.mapping = ∅
  · rw [if_pos hc] at h; cases h; exact .inl ⟨rfl, hc⟩
  rw [if_neg hc] at h
  obtain ⟨e, w1, h1, g1⟩ := M.bind_eq_ok h
  obtain ⟨x, w2, h2, g2⟩ := M.bind_eq_ok g1
  obtain ⟨p, w3, h3, g3⟩ := M.bind_eq_ok g2
  cases g3
  exact .inr ⟨x.1, p, rfl, canMove_of_cut (mem_iterE.1 (hR.choice_ok h1)) (chooseEnd_ok hR h2) (covers_adj hG hcov)
    (Dict.get_eq_ok_iff.1 (M.lift_eq_ok h3).1)⟩

theorem everyDistrictFlip_ok {R : Rand S} (hR : R.Valid) (hG : G.WF) (hcov : a.Covers G.nodes) {l : List (Finset (V × V))}
    (hl : ∀ s ∈ l, s ⊆ cutsOf G a.mapping) {flips : Dict V P} (hf : flips.WF)
    (hm : ∀ v q, flips.get? v = some q → CanMove G a.mapping v q) {w w' : S} {r : Dict V P}
    (h : everyDistrictFlip R a l flips w = (.ok r, w')) : r.WF ∧ ∀ v q, r.get? v = some q → CanMove G a.mapping v q := by
  induction l generalizing flips w with
  | nil => cases h; exact ⟨hf, hm⟩
  | cons s l ih =>
    unfold everyDistrictFlip at h
    obtain ⟨e, w1, h1, g1⟩ := M.bind_eq_ok h
    obtain ⟨x, w2, h2, g2⟩ := M.bind_eq_ok g1
    obtain ⟨p, w3, h3, g3⟩ := M.bind_eq_ok g2
    refine ih (fun t ht => hl t (List.mem_cons_of_mem _ ht)) (hf.set _ _) ?_ g3
    intro v q hv
    by_cases hvx : v = x.1
    · subst hvx
      rw [Dict.get?_set_self] at hv
      cases hv
      exact canMove_of_cut (hl s List.mem_cons_self (mem_iterE.1 (hR.choice_ok h1))) (chooseEnd_ok hR h2) (covers_adj hG hcov)
        (Dict.get_eq_ok_iff.1 (M.lift_eq_ok h3).1)
    · rw [Dict.get?_set_ne _ _ hvx] at hv
      exact hm v q hv

theorem chunkFlip_ok {R : Rand S} (hR : R.Valid) (hG : G.WF) {w w' : S} {r : Dict V P}
    (h : chunkFlip R G a (cutsOf G a.mapping) w = (.ok r, w')) :
    r.WF ∧ ∃ v p, a.mapping.get? v = some p ∧ (∃ u, G.Adj v u ∧ a.mapping.get? u ≠ some p) ∧
      ∀ x, r.get? x = if G.Adj v x ∧ a.mapping.get? x ≠ some p then some p else none := by
  unfold chunkFlip at h
  obtain ⟨e, w1, h1, g1⟩ := M.bind_eq_ok h
  obtain ⟨x, w2, h2, g2⟩ := M.bind_eq_ok g1
  obtain ⟨p, w3, h3, g3⟩ := M.bind_eq_ok g2
  cases g3
  have hp := Dict.get_eq_ok_iff.1 (M.lift_eq_ok h3).1
  obtain ⟨⟨-, hadj⟩, hne⟩ := mem_cutsOf.1 (mem_iterE.1 (hR.choice_ok h1))
  refine ⟨Dict.wf_empty.assignAll _ _, x.1, p, hp, ⟨x.2, ?_, ?_⟩, ?_⟩
  · rcases chooseEnd_ok hR h2 with rfl | rfl; exacts [hadj, hadj.symm]
  · rw [← hp]
    rcases chooseEnd_ok hR h2 with rfl | rfl
    · exact fun h => hne h.symm
    · exact hne
  · intro y
    rw [get?_assignAll]
    have : y ∈ (G.neighbors x.1).filter (fun u => a.mapping.get? u ≠ a.mapping.get? x.1) ↔
        G.Adj x.1 y ∧ a.mapping.get? y ≠ some p := by
      rw [Finset.mem_filter, Graph.mem_neighbors hG, hp]
    by_cases hy : G.Adj x.1 y ∧ a.mapping.get? y ≠ some p
    · rw [if_pos (this.2 hy), if_pos hy]
    · rw [if_neg (fun h => hy (this.1 h)), if_neg hy]; rfl

theorem slowFlipBi_ok {R : Rand S} (hR : R.Valid) (hG : G.WF) {w w' : S} {r : Dict V P}
    (h : slowFlipBi R G a (cutsOf G a.mapping) w = (.ok r, w')) :
    ∃ v q, r = ⟨[(v, q)]⟩ ∧ CanMove G a.mapping v q := by
  unfold slowFlipBi at h
  obtain ⟨v, w1, h1, g1⟩ := M.bind_eq_ok h
  obtain ⟨own, w2, h2, g2⟩ := M.bind_eq_ok g1
  by_cases ho : own ∈ ((iter (G.neighbors v)).filterMap a.mapping.get?).dedup
  · rw [if_pos ho] at g2
    obtain ⟨q, w3, h3, g3⟩ := M.bind_eq_ok g2
    cases g3
    refine ⟨v, q, rfl, ⟨own, Dict.get_eq_ok_iff.1 (M.lift_eq_ok h2).1, ?_⟩, ?_⟩
    · rintro rfl
      exact (List.Nodup.not_mem_erase (List.nodup_dedup _)) (hR.choice_ok h3)
    · have := List.mem_of_mem_erase (hR.choice_ok h3)
      rw [List.mem_dedup, List.mem_filterMap] at this
      obtain ⟨u, hu, hq⟩ := this
      exact ⟨u, (Graph.mem_neighbors hG).1 (mem_iter.1 hu), hq⟩
  · rw [if_neg ho] at g2; cases g2

/-- the pairs from which `slow_reversible_propose` chooses -/
theorem mem_flipPairs (hG : G.WF) (hcov : a.Covers G.nodes) {v : V} {q : P} :
    (v, q) ∈ flipPairs a (cutsOf G a.mapping) ↔ CanMove G a.mapping v q := by
  unfold flipPairs
  rw [List.mem_dedup, List.mem_append, List.mem_filterMap, List.mem_filterMap]
  constructor
  · rintro (⟨e, he, h⟩ | ⟨e, he, h⟩)
    · rw [Option.map_eq_some_iff] at h
      obtain ⟨p, hp, h⟩ := h
      cases h
      exact canMove_of_cut (x := e) (mem_iterE.1 he) (.inl rfl) (covers_adj hG hcov) hp
    · rw [Option.map_eq_some_iff] at h
      obtain ⟨p, hp, h⟩ := h
      cases h
      exact canMove_of_cut (x := (e.2, e.1)) (mem_iterE.1 he) (.inr rfl) (covers_adj hG hcov) hp
  · intro h
    obtain ⟨e, he, x, hx, rfl, hq⟩ := cut_of_canMove h
    rcases hx with rfl | rfl
    · exact .inl ⟨x, mem_iterE.2 he, by rw [hq]; rfl⟩
    · exact .inr ⟨e, mem_iterE.2 he, by rw [hq]; rfl⟩

theorem slowFlip_ok {R : Rand S} (hR : R.Valid) (hG : G.WF) (hcov : a.Covers G.nodes) {w w' : S} {r : Dict V P}
    (h : slowFlip R a (cutsOf G a.mapping) w = (.ok r, w')) : ∃ v q, r = ⟨[(v, q)]⟩ ∧ CanMove G a.mapping v q := by
  unfold slowFlip at h
  obtain ⟨⟨v, q⟩, w1, h1, g1⟩ := M.bind_eq_ok h
  cases g1
  exact ⟨v, q, rfl, (mem_flipPairs hG hcov).1 (hR.choice_ok h1)⟩

end

/-! ### On partition objects -/

theorem proposeWith_ok {α : Type} {k : Key} {conv : Val V P → Py α}
    {f : Graph V → Assignment V P → α → M X (Option (Dict V P))} {limit st q : ℕ} {s s1 : World V P X}
    (h : proposeWith k conv f limit st s = (.ok q, s1)) :
    ∃ v x y r w', s.1.frame.view st = some v ∧ (getitem s.1.frame limit k st s.1.caches).1 = .ok x ∧ conv x = .ok y ∧
      f s.1.frame.data.graph v.assignment y s.2 = (.ok r, w') ∧
      ((r = none ∧ q = st ∧ s1.1 = s.1.step (.lookup st k limit)) ∨
        ∃ flips F, r = some flips ∧ s.1.frame.flip st flips = .ok F ∧ q = s.1.frame.objs.length ∧
          s1.1 = ⟨F, (s.1.step (.lookup st k limit)).caches⟩) := by
  unfold proposeWith at h
  obtain ⟨v, w1, h1, g1⟩ := M.bind_eq_ok h
  obtain ⟨hw1, hv⟩ := viewObj_eq h1
  obtain ⟨w, w2, h2, g2⟩ := M.bind_eq_ok g1
  have hw2 : w = s ∧ w2 = s := by rw [← hw1]; cases h2; exact ⟨rfl, rfl⟩
  rw [hw2.1, hw2.2] at g2
  obtain ⟨x, w3, h3, g3⟩ := M.bind_eq_ok g2
  obtain ⟨y, w4, h4, g4⟩ := M.bind_eq_ok g3
  obtain ⟨h4', rfl⟩ := M.lift_eq_ok h4
  obtain ⟨r, w5, h5, g5⟩ := M.bind_eq_ok g4
  obtain ⟨h6, h7⟩ := M.onRest_eq h5
  unfold lookupKey at h3
  have e1 := (Prod.mk.inj h3).1
  have e2 := (Prod.mk.inj h3).2
  have e3 : w3.1 = s.1.step (.lookup st k limit) := by rw [← e2]
  have e4 : w3.2 = s.2 := by rw [← e2]
  have hfr : w5.1.frame = s.1.frame := by rw [h7, e3]; rfl
  rw [e4] at h6
  refine ⟨v, x, y, r, w5.2, (hv v).1 rfl, e1, h4', h6, ?_⟩
  rcases r with _ | flips
  · cases g5
    exact .inl ⟨rfl, rfl, by rw [h7, e3]⟩
  · right
    rcases flipObj_eq g5 with ⟨F, k1, k2, k3⟩ | ⟨e, k1, -⟩
    · rw [hfr] at k1 k2
      cases k2
      exact ⟨flips, F, rfl, k1, rfl, by rw [k3, h7, e3]⟩
    · cases k1

theorem proposeWith_flipProposal {α : Type} {k : Key} {conv : Val V P → Py α}
    {f : Graph V → Assignment V P → α → M X (Option (Dict V P))} {limit : ℕ}
    (hf : ∀ G a y w flips w', f G a y w = (.ok (some flips), w') → flips.WF) :
    FlipProposal (proposeWith k conv f limit : ℕ → M (World V P X) ℕ) := by
  constructor
  · intro st s q s1 h
    obtain ⟨v, x, y, r, w', -, -, -, h4, h5⟩ := proposeWith_ok h
    refine ⟨[.lookup st k limit], by simp [Op.IsLookup], ?_⟩
    rcases h5 with ⟨-, h5, h6⟩ | ⟨flips, F, rfl, h5, h6, h7⟩
    · exact .inl ⟨h5, h6⟩
    · exact .inr ⟨flips, F, hf _ _ _ _ _ _ h4, h5, h7, h6⟩
  · intro st s e s1 h
    unfold proposeWith at h
    rcases M.bind_eq_error h with h1 | ⟨v, w1, h1, g1⟩
    · exact ⟨[], by simp, by rw [(viewObj_eq h1).1]; rfl⟩
    obtain ⟨hw1, hv⟩ := viewObj_eq h1
    rcases M.bind_eq_error g1 with h2 | ⟨w, w2, h2, g2⟩
    · cases h2
    have hw2 : w2 = s := by rw [← hw1]; cases h2; rfl
    rw [hw2] at g2
    refine ⟨[.lookup st k limit], by simp [Op.IsLookup], ?_⟩
    show s1.1 = s.1.step (.lookup st k limit)
    rcases M.bind_eq_error g2 with h3 | ⟨x, w3, h3, g3⟩
    · rw [← (Prod.mk.inj h3).2]
    have e2 := (Prod.mk.inj h3).2
    rcases M.bind_eq_error g3 with h4 | ⟨y, w4, h4, g4⟩
    · rw [← (Prod.mk.inj h4).2, ← e2]
    obtain ⟨-, rfl⟩ := M.lift_eq_ok h4
    rcases M.bind_eq_error g4 with h5 | ⟨r, w5, h5, g5⟩
    · rw [(M.onRest_eq h5).2, ← e2]
    rcases r with _ | flips
    · cases g5
    · rcases flipObj_eq g5 with ⟨F, -, k2, -⟩ | ⟨e, -, k2⟩
      · cases k2
      · rw [k2, (M.onRest_eq h5).2, ← e2]

/-- what is known about the looked up value and the child -/
theorem proposeWith_child {α : Type} {k : Key} {conv : Val V P → Py α}
    {f : Graph V → Assignment V P → α → M X (Option (Dict V P))} {limit st q : ℕ} {s s1 : World V P X} (hs : HeapInv s.1)
    (hf : ∀ G a y w flips w', f G a y w = (.ok (some flips), w') → flips.WF)
    {v : View V P} (hv : s.1.frame.view st = some v) (h : proposeWith k conv f limit st s = (.ok q, s1)) :
    ∃ x y r w', Correct s.1.frame.data (s.1.frame.moved st) v.assignment k x ∧ conv x = .ok y ∧
      f s.1.frame.data.graph v.assignment y s.2 = (.ok r, w') ∧
      ((r = none ∧ q = st ∧ s1.1.frame = s.1.frame) ∨ ∃ flips b w, r = some flips ∧ v.assignment.flip flips = .ok b ∧
        s1.1.frame.view q = some w ∧ w.assignment = b ∧ w.parent = some st ∧ ∀ v', s.1.frame.view q ≠ some v') := by
  obtain ⟨v', x, y, r, w', h1, h2, h3, h4, h5⟩ := proposeWith_ok h
  rw [hv] at h1; cases h1
  have hcor := getitem_sat hs.frame limit k st _ hs.caches
  rcases hg : getitem s.1.frame limit k st s.1.caches with ⟨r', c'⟩
  rw [hg] at hcor h2
  simp only at h2
  subst h2
  obtain ⟨-, v2, hv2, hcc⟩ := hcor
  rw [hv] at hv2; cases hv2
  refine ⟨x, y, r, w', hcc, h3, h4, ?_⟩
  rcases h5 with ⟨hr, h5, h6⟩ | ⟨flips, F, rfl, h5, h6, h7⟩
  · exact .inl ⟨hr, h5, by rw [h6]; rfl⟩
  · right
    obtain ⟨-, -, v3, b, hv3, hb, w, hw, hwb, hwp⟩ := hs.frame.flip (hf _ _ _ _ _ _ h4) h5
    rw [hv] at hv3; cases hv3
    refine ⟨flips, b, w, rfl, hb, by rw [h7, h6]; exact hw, hwb, hwp, ?_⟩
    intro v' hv'
    have := Frame.lt_of_view hv'
    omega

theorem asEdgeSet_correct {D : GraphData V} {moved : V → Prop} {a : Assignment V P} {x : Val V P} {y : Finset (V × V)}
    (h : Correct D moved a .cutEdges x) (hy : x.asEdgeSet = .ok y) : y = cutsOf D.graph a.mapping := by
  unfold Val.asEdgeSet at hy
  cases x <;> cases hy
  exact h

/-- **C45** `propose_random_flip` returns the partition itself, exactly when there is no cut edge, or a new child that differs
in one node, moved to a different district containing one of its neighbours. -/
theorem C45_random_flip (R : Rand X) (hR : R.Valid) (limit st q : ℕ) (s s1 : World V P X) (hs : HeapInv s.1) (v : View V P)
    (hv : s.1.frame.view st = some v) (h : proposeRandomFlip R limit st s = (.ok q, s1)) :
    (q = st ∧ s1.1.frame = s.1.frame ∧ ¬ ∃ n l, CanMove s.1.frame.data.graph v.assignment.mapping n l) ∨
    ∃ w, s1.1.frame.view q = some w ∧ w.parent = some st ∧ (∀ v', s.1.frame.view q ≠ some v') ∧
      BoundaryMove s.1.frame.data.graph v.assignment w.assignment := by
  have hG := hs.frame.graph
  have hcov := hs.frame.covers _ _ hv
  obtain ⟨x, y, r, w', h1, h2, h3, h4⟩ := proposeWith_child hs (by
    intro G a y w flips w' h
    unfold randomFlip at h
    by_cases hc : y = ∅
    · rw [if_pos hc] at h; cases h
    rw [if_neg hc] at h
    obtain ⟨e, w1, h1, g1⟩ := M.bind_eq_ok h
    obtain ⟨x, w2, h2, g2⟩ := M.bind_eq_ok g1
    obtain ⟨p, w3, h3, g3⟩ := M.bind_eq_ok g2
    cases g3
    exact one_wf _ _) hv h
  rw [asEdgeSet_correct h1 h2] at h3
  rcases randomFlip_ok hR hG hcov h3 with ⟨rfl, hc⟩ | ⟨n, l, rfl, hc⟩
  · rcases h4 with ⟨-, h4, h5⟩ | ⟨flips, b, w, h4, -⟩
    · refine .inl ⟨h4, h5, ?_⟩
      rintro ⟨n, l, hm⟩
      obtain ⟨e, he, -⟩ := cut_of_canMove hm
      rw [hc] at he
      cases he
    · cases h4
  · rcases h4 with ⟨h4, -⟩ | ⟨flips, b, w, h4, h5, h6, h7, h8, h9⟩
    · cases h4
    · cases h4
      exact .inr ⟨w, h6, h8, h9, n, l, hc, by rw [h7]; exact movedTo_of_flip (hs.frame.coherent _ _ hv) h5⟩

/-- **C45** (partial) When `slow_reversible_propose` returns, it returns a new child that differs in one node, moved to a
different district containing one of its neighbours.  Missing: without a boundary it raises (`C45_no_boundary`). -/
theorem C45_slow_reversible_partial (R : Rand X) (hR : R.Valid) (limit st q : ℕ) (s s1 : World V P X) (hs : HeapInv s.1)
    (v : View V P) (hv : s.1.frame.view st = some v) (h : slowReversiblePropose R limit st s = (.ok q, s1)) :
    ∃ w, s1.1.frame.view q = some w ∧ w.parent = some st ∧ (∀ v', s.1.frame.view q ≠ some v') ∧
      BoundaryMove s.1.frame.data.graph v.assignment w.assignment := by
  obtain ⟨x, y, r, w', h1, h2, h3, h4⟩ := proposeWith_child hs (by
    intro G a y w flips w' h
    obtain ⟨f, w1, h1, g1⟩ := M.bind_eq_ok h
    cases g1
    unfold slowFlip at h1
    obtain ⟨x, w2, h2, g2⟩ := M.bind_eq_ok h1
    cases g2
    exact one_wf _ _) hv h
  rw [asEdgeSet_correct h1 h2] at h3
  obtain ⟨f, w1, k1, k2⟩ := M.bind_eq_ok h3
  cases k2
  obtain ⟨n, l, rfl, hc⟩ := slowFlip_ok hR hs.frame.graph (hs.frame.covers _ _ hv) k1
  rcases h4 with ⟨h4, -⟩ | ⟨flips, b, w, h4, h5, h6, h7, h8, h9⟩
  · cases h4
  · cases h4
    exact ⟨w, h6, h8, h9, n, l, hc, by rw [h7]; exact movedTo_of_flip (hs.frame.coherent _ _ hv) h5⟩

/-- **C45** (partial) When `slow_reversible_propose_bi` returns, it returns a new child that differs in one node, moved to a
different district containing one of its neighbours.  Missing: without a boundary, and at a node without a neighbour in its own
district, it raises (`C45_no_boundary`, `C45_bi_value_error`). -/
theorem C45_slow_reversible_bi_partial (R : Rand X) (hR : R.Valid) (limit st q : ℕ) (s s1 : World V P X) (hs : HeapInv s.1)
    (v : View V P) (hv : s.1.frame.view st = some v) (h : slowReversibleProposeBi R limit st s = (.ok q, s1)) :
    ∃ w, s1.1.frame.view q = some w ∧ w.parent = some st ∧ (∀ v', s.1.frame.view q ≠ some v') ∧
      BoundaryMove s.1.frame.data.graph v.assignment w.assignment := by
  obtain ⟨x, y, r, w', h1, h2, h3, h4⟩ := proposeWith_child hs (by
    intro G a y w flips w' h
    obtain ⟨f, w1, h1, g1⟩ := M.bind_eq_ok h
    cases g1
    unfold slowFlipBi at h1
    obtain ⟨n, w2, h2, g2⟩ := M.bind_eq_ok h1
    obtain ⟨own, w3, h3, g3⟩ := M.bind_eq_ok g2
    by_cases ho : own ∈ ((iter (G.neighbors n)).filterMap a.mapping.get?).dedup
    · rw [if_pos ho] at g3
      obtain ⟨l, w4, h4, g4⟩ := M.bind_eq_ok g3
      cases g4
      exact one_wf _ _
    · rw [if_neg ho] at g3; cases g3) hv h
  rw [asEdgeSet_correct h1 h2] at h3
  obtain ⟨f, w1, k1, k2⟩ := M.bind_eq_ok h3
  cases k2
  obtain ⟨n, l, rfl, hc⟩ := slowFlipBi_ok hR hs.frame.graph k1
  rcases h4 with ⟨h4, -⟩ | ⟨flips, b, w, h4, h5, h6, h7, h8, h9⟩
  · cases h4
  · cases h4
    exact ⟨w, h6, h8, h9, n, l, hc, by rw [h7]; exact movedTo_of_flip (hs.frame.coherent _ _ hv) h5⟩

/-- **C45** `propose_flip_every_district` returns a new child in which every node keeps its district or is moved to a different
district containing one of its neighbours. -/
theorem C45_every_district (R : Rand X) (hR : R.Valid) (limit st q : ℕ) (s s1 : World V P X) (hs : HeapInv s.1) (v : View V P)
    (hv : s.1.frame.view st = some v) (h : proposeFlipEveryDistrict R limit st s = (.ok q, s1)) :
    ∃ w, s1.1.frame.view q = some w ∧ w.parent = some st ∧ (∀ v', s.1.frame.view q ≠ some v') ∧
      ∀ n, w.assignment.mapping.get? n = v.assignment.mapping.get? n ∨
        ∃ l, w.assignment.mapping.get? n = some l ∧ CanMove s.1.frame.data.graph v.assignment.mapping n l := by
  obtain ⟨x, y, r, w', h1, h2, h3, h4⟩ := proposeWith_child hs (by
    intro G a y w flips w' h
    obtain ⟨f, w1, h1, g1⟩ := M.bind_eq_ok h
    cases g1
    have gen : ∀ (l : List (Finset (V × V))) (d : Dict V P) (w w' : X) (r : Dict V P), d.WF →
        everyDistrictFlip R a l d w = (.ok r, w') → r.WF := by
      intro l
      induction l with
      | nil => intro d w w' r hd h; cases h; exact hd
      | cons s l ih =>
        intro d w w' r hd h
        unfold everyDistrictFlip at h
        obtain ⟨e, w1, h1, g1⟩ := M.bind_eq_ok h
        obtain ⟨x, w2, h2, g2⟩ := M.bind_eq_ok g1
        obtain ⟨p, w3, h3, g3⟩ := M.bind_eq_ok g2
        exact ih _ _ _ _ (hd.set _ _) g3
    exact gen _ _ _ _ _ Dict.wf_empty h1) hv h
  have hsub : ∀ t ∈ y.keys.map (fun p => (y.get? p).getD ∅), t ⊆ cutsOf s.1.frame.data.graph v.assignment.mapping := by
    intro t ht
    obtain ⟨p, -, rfl⟩ := List.mem_map.1 ht
    have hy : ∀ p, (y.get? p).getD ∅ = cutsTouching s.1.frame.data.graph v.assignment.mapping p := by
      unfold Val.asEdgesByPart at h2
      cases x <;> cases h2
      exact h1
    rw [hy]
    exact Finset.filter_subset _ _
  obtain ⟨f, w1, k1, k2⟩ := M.bind_eq_ok h3
  cases k2
  obtain ⟨hwf, hc⟩ := everyDistrictFlip_ok hR hs.frame.graph (hs.frame.covers _ _ hv) hsub Dict.wf_empty
    (fun v q h => by cases h) k1
  rcases h4 with ⟨h4, -⟩ | ⟨flips, b, w, h4, h5, h6, h7, h8, h9⟩
  · cases h4
  · cases h4
    refine ⟨w, h6, h8, h9, fun n => ?_⟩
    rw [h7, (flip_ok (hs.frame.coherent _ _ hv) hwf h5).get?]
    rcases hn : f.get? n with _ | l
    · exact .inl rfl
    · exact .inr ⟨l, rfl, hc n l hn⟩

/-- **C45** (partial) `propose_chunk_flip` chooses a node next to another district, which keeps its district, and moves exactly
those of its neighbours that are in other districts into its district.  The claim (and the documentation) say something else:
see `C45_chunk_violation`. -/
theorem C45_chunk_flip_partial (R : Rand X) (hR : R.Valid) (limit st q : ℕ) (s s1 : World V P X) (hs : HeapInv s.1) (v : View V P)
    (hv : s.1.frame.view st = some v) (h : proposeChunkFlip R limit st s = (.ok q, s1)) :
    ∃ w, s1.1.frame.view q = some w ∧ w.parent = some st ∧ (∀ v', s.1.frame.view q ≠ some v') ∧
      ∃ n p, v.assignment.mapping.get? n = some p ∧
        (∃ u, s.1.frame.data.graph.Adj n u ∧ v.assignment.mapping.get? u ≠ some p) ∧
        ∀ x, w.assignment.mapping.get? x = if s.1.frame.data.graph.Adj n x then some p else v.assignment.mapping.get? x := by
  obtain ⟨x, y, r, w', h1, h2, h3, h4⟩ := proposeWith_child hs (by
    intro G a y w flips w' h
    obtain ⟨f, w1, h1, g1⟩ := M.bind_eq_ok h
    cases g1
    unfold chunkFlip at h1
    obtain ⟨e, w1, h1, g1⟩ := M.bind_eq_ok h1
    obtain ⟨x, w2, h2, g2⟩ := M.bind_eq_ok g1
    obtain ⟨p, w3, h3, g3⟩ := M.bind_eq_ok g2
    cases g3
    exact Dict.wf_empty.assignAll _ _) hv h
  rw [asEdgeSet_correct h1 h2] at h3
  obtain ⟨f, w1, k1, k2⟩ := M.bind_eq_ok h3
  cases k2
  obtain ⟨hwf, n, p, hp, hu, hget⟩ := chunkFlip_ok hR hs.frame.graph k1
  rcases h4 with ⟨h4, -⟩ | ⟨flips, b, w, h4, h5, h6, h7, h8, h9⟩
  · cases h4
  · cases h4
    refine ⟨w, h6, h8, h9, n, p, hp, hu, fun x => ?_⟩
    rw [h7, (flip_ok (hs.frame.coherent _ _ hv) hwf h5).get?, hget]
    by_cases hx : s.1.frame.data.graph.Adj n x
    · rw [if_pos hx]
      by_cases hxp : v.assignment.mapping.get? x = some p
      · rw [if_neg (by simp [hxp])]; exact hxp
      · rw [if_pos ⟨hx, hxp⟩]; rfl
    · rw [if_neg hx, if_neg (by simp [hx])]; rfl

/-! ### Completeness and errors -/

/-- the state of `tapeRand` that makes the next choice return `x` -/
theorem tapeRand_hit {α : Type} {l : List α} {x : α} (h : x ∈ l) : ∃ i, ∀ t, tapeRand.choice l (i :: t) = (.ok x, t) := by
  obtain ⟨i, hi, rfl⟩ := List.mem_iff_getElem.1 h
  refine ⟨i, fun t => ?_⟩
  show (match l[(i :: t).headD 0 % l.length]? with | some x => _ | none => _) = _
  simp only [List.headD_cons, Nat.mod_eq_of_lt hi, List.getElem?_eq_getElem hi, List.tail_cons]

theorem chooseEnd_hit {e x : V × V} (h : x = e ∨ x = (e.2, e.1)) : ∃ i, ∀ t, chooseEnd tapeRand e (i :: t) = (.ok x, t) := by
  rcases h with rfl | rfl
  · exact ⟨0, fun t => rfl⟩
  · exact ⟨1, fun t => rfl⟩

/-- **C45** (completeness) `propose_random_flip` and `slow_reversible_propose` can produce every such move. -/
theorem C45_complete {G : Graph V} (hG : G.WF) {a : Assignment V P} (hcov : a.Covers G.nodes) {v : V} {q : P}
    (h : CanMove G a.mapping v q) :
    (∃ w w', randomFlip tapeRand a (cutsOf G a.mapping) w = (.ok (some ⟨[(v, q)]⟩), w')) ∧
    (∃ w w', slowFlip tapeRand a (cutsOf G a.mapping) w = (.ok ⟨[(v, q)]⟩, w')) := by
  constructor
  · obtain ⟨e, he, x, hx, rfl, hq⟩ := cut_of_canMove h
    obtain ⟨i, hi⟩ := tapeRand_hit (mem_iterE.2 he)
    obtain ⟨j, hj⟩ := chooseEnd_hit hx
    refine ⟨[i, j], [], ?_⟩
    unfold randomFlip
    rw [if_neg (by rintro h0; rw [h0] at he; cases he)]
    refine (M.bind_ok (hi [j])).trans ?_
    refine (M.bind_ok (hj [])).trans ?_
    unfold M.lift
    rw [Dict.get_eq_ok_iff.2 hq]
    rfl
  · obtain ⟨i, hi⟩ := tapeRand_hit ((mem_flipPairs hG hcov).2 h)
    exact ⟨[i], [], M.bind_ok (hi [])⟩

/-- **C45 is violated**: without a boundary `slow_reversible_propose`, `slow_reversible_propose_bi` and `propose_chunk_flip` do not
return the partition itself, they raise `IndexError`. -/
theorem C45_no_boundary (R : Rand S) (hR : R.Valid) (G : Graph V) (a : Assignment V P) (w : S) :
    (slowFlip R a ∅ w).1 = .error .indexError ∧ (slowFlipBi R G a ∅ w).1 = .error .indexError ∧
      (chunkFlip R G a ∅ w).1 = .error .indexError := by
  have h3 : iterE (∅ : Finset (V × V)) = [] := List.eq_nil_iff_forall_not_mem.2 (fun x hx => by simpa using mem_iterE.1 hx)
  have h1 : flipPairs a (∅ : Finset (V × V)) = [] := by unfold flipPairs; rw [h3]; rfl
  have h2 : iter (cutEnds (∅ : Finset (V × V))) = [] := List.eq_nil_iff_forall_not_mem.2 (fun x hx => by
    simpa [cutEnds] using mem_iter.1 hx)
  obtain ⟨w1, e1⟩ := hR.choice_nil (α := V × P) w
  obtain ⟨w2, e2⟩ := hR.choice_nil (α := V) w
  obtain ⟨w3, e3⟩ := hR.choice_nil (α := V × V) w
  refine ⟨?_, ?_, ?_⟩
  · unfold slowFlip
    rw [h1, M.bind_error e1]
  · unfold slowFlipBi
    rw [h2, M.bind_error e2]
  · unfold chunkFlip
    rw [h3, M.bind_error e3]

/-- **C45 is violated**: `slow_reversible_propose_bi` raises `ValueError` when it chooses a node whose district contains none of
its neighbours (such as a district of one node). -/
theorem C45_bi_value_error (R : Rand S) (G : Graph V) (hG : G.WF) (a : Assignment V P) (w w' : S)
    (v : V) (p : P) (hv : a.mapping.get? v = some p) (hno : ∀ u, G.Adj v u → a.mapping.get? u ≠ some p)
    (hch : R.choice (iter (cutEnds (cutsOf G a.mapping))) w = (.ok v, w')) :
    slowFlipBi R G a (cutsOf G a.mapping) w = (.error .valueError, w') := by
  unfold slowFlipBi
  refine (M.bind_ok hch).trans ?_
  refine (M.bind_ok (show M.lift (a.mapping.get v) w' = (.ok p, w') by unfold M.lift; rw [Dict.get_eq_ok_iff.2 hv])).trans ?_
  rw [if_neg]
  · rfl
  · rw [List.mem_dedup, List.mem_filterMap]
    rintro ⟨u, hu, hp⟩
    exact hno u ((Graph.mem_neighbors hG).1 (mem_iter.1 hu)) hp

/-- The errors of `propose_random_flip`: none, on any plan. -/
theorem C45_random_flip_total (R : Rand S) (hR : R.Valid) (G : Graph V) (hG : G.WF) (a : Assignment V P)
    (hcov : a.Covers G.nodes) (w : S) : ∃ r w', randomFlip R a (cutsOf G a.mapping) w = (.ok r, w') := by
  unfold randomFlip
  by_cases hc : cutsOf G a.mapping = ∅
  · rw [if_pos hc]; exact ⟨_, _, rfl⟩
  rw [if_neg hc]
  obtain ⟨e0, he0⟩ := Finset.nonempty_iff_ne_empty.2 hc
  obtain ⟨e, he, w1, h1⟩ := hR.choice_mem (iterE (cutsOf G a.mapping)) w
    (List.ne_nil_of_mem (mem_iterE.2 he0))
  rcases h2 : chooseEnd R e w1 with ⟨err | x, w2⟩
  · exact absurd h2 (chooseEnd_no_error hR)
  obtain ⟨⟨-, hadj⟩, -⟩ := mem_cutsOf.1 (mem_iterE.1 he)
  have hx : ∃ q, a.mapping.get? x.2 = some q := by
    rcases chooseEnd_ok hR h2 with rfl | rfl
    · exact covers_adj hG hcov _ _ hadj.symm
    · exact covers_adj hG hcov _ _ hadj
  obtain ⟨q, hq⟩ := hx
  refine ⟨some ⟨[(x.1, q)]⟩, w2, ?_⟩
  refine (M.bind_ok h1).trans ?_
  refine (M.bind_ok h2).trans ?_
  unfold M.lift
  rw [Dict.get_eq_ok_iff.2 hq]
  rfl

/-- **C45 is violated**: `propose_chunk_flip` on three districts of two nodes in a row moves node 2 alone, although node 3 is a
neighbour in the same district. -/
theorem C45_chunk_violation : ∃ w w' flips, chunkFlip tapeRand exLine linePlan (cutsOf exLine linePlan.mapping) w = (.ok flips, w') ∧
    ¬ ∃ n ∈ flips.keys, ∀ u, u ∈ flips.keys ↔ u = n ∨ (exLine.Adj n u ∧ linePlan.mapping.get? u = linePlan.mapping.get? n) := by
  refine ⟨[0, 0], [], ⟨[(2, 1)]⟩, by rfl, ?_⟩
  rintro ⟨n, hn, h⟩
  simp only [Dict.keys, List.map_cons, List.map_nil, List.mem_singleton] at hn
  subst hn
  have := (h 3).2 (.inr ⟨by decide, by decide⟩)
  revert this
  decide

/-- Remark on C45: `propose_flip_every_district` raises `IndexError` when `cut_edges_by_part` reports a district without cut
edges, as it does for a district that has lost its last cut edge. -/
theorem C45_every_district_index_error (R : Rand S) (hR : R.Valid) (a : Assignment V P) (l : List (Finset (V × V)))
    (flips : Dict V P) (w : S) : ∃ w', everyDistrictFlip R a (∅ :: l) flips w = (.error .indexError, w') := by
  have h3 : iterE (∅ : Finset (V × V)) = [] := List.eq_nil_iff_forall_not_mem.2 (fun x hx => by simpa using mem_iterE.1 hx)
  obtain ⟨w', e⟩ := hR.choice_nil (α := V × V) w
  refine ⟨w', ?_⟩
  unfold everyDistrictFlip
  rw [h3]
  exact M.bind_error e

/-! ### C57 -/

/-- `slow_reversible_propose` can go from plan `a` to plan `b`: for some random outcome it computes flips that turn `a` into `b` -/
def SlowStep (G : Graph V) (a b : Assignment V P) : Prop :=
  ∃ (R : Rand (List ℕ)) (w w' : List ℕ) (flips : Dict V P), R.Valid ∧
    slowFlip R a (cutsOf G a.mapping) w = (.ok flips, w') ∧ a.flip flips = .ok b

/-- **C57** If `slow_reversible_propose` can go from `a` to `b`, and a moved node had a neighbour in the district it left, it can
go back from `b` to `a` (to a plan with the same assignment of nodes and the same district labels). -/
theorem C57_reversible (G : Graph V) (hG : G.WF) (a b : Assignment V P) (ha : a.Coherent) (hcov : a.Covers G.nodes)
    (h : SlowStep G a b)
    (hback : ∀ v, b.mapping.get? v ≠ a.mapping.get? v → ∃ u, u ≠ v ∧ G.Adj v u ∧ a.mapping.get? u = a.mapping.get? v) :
    ∃ c, SlowStep G b c ∧ c.Coherent ∧ (∀ v, c.mapping.get? v = a.mapping.get? v) ∧ c.parts.keys = a.parts.keys := by
  obtain ⟨R, w, w', flips, hR, h1, h2⟩ := h
  obtain ⟨v, q, rfl, ⟨⟨p, hp, hpq⟩, u, hvu, hu⟩⟩ := slowFlip_ok hR hG hcov h1
  have hs := flip_ok ha (one_wf v q) h2
  have hm := movedTo_of_flip ha h2
  have hbv : b.mapping.get? v = some q := by rw [hm, if_pos rfl]
  obtain ⟨u', hne, hadj, hu'⟩ := hback v (by rw [hbv, hp]; intro h; exact hpq (Option.some.inj h).symm)
  have hbu : b.mapping.get? u' = some p := by rw [hm, if_neg hne, hu', hp]
  have hcovb : b.Covers G.nodes := by
    intro x
    rw [← hcov x, Dict.mem_keys_iff, Dict.mem_keys_iff]
    by_cases hx : x = v
    · subst hx; simp [hbv, hp]
    · rw [hm, if_neg hx]
  have hcan : CanMove G b.mapping v p := ⟨⟨q, hbv, Ne.symm hpq⟩, u', hadj, hbu⟩
  obtain ⟨-, w1, w2, h3⟩ := C45_complete hG hcovb hcan
  rcases hc : b.flip ⟨[(v, p)]⟩ with e | c
  · exfalso
    obtain ⟨-, hbad⟩ := (C03_flip_raises_iff b hs.coherent _ (one_wf v p) e).1 hc
    rcases hbad with ⟨x, hx, hx'⟩ | ⟨x, hx, hx'⟩
    · simp only [Dict.keys, List.map_cons, List.map_nil, List.mem_singleton] at hx
      subst hx
      exact hx' (Dict.mem_keys_iff.2 ⟨q, hbv⟩)
    · simp only [Dict.values, List.map_cons, List.map_nil, List.mem_singleton] at hx
      subst hx
      exact hx' (hs.coherent.complete _ _ hbu)
  · have hs' := flip_ok hs.coherent (one_wf v p) hc
    refine ⟨c, ⟨tapeRand, w1, w2, _, tapeRand_valid, h3, hc⟩, hs'.coherent, fun x => ?_, by rw [hs'.keys, hs.keys]⟩
    rw [movedTo_of_flip hs.coherent hc x]
    by_cases hx : x = v
    · subst hx; rw [if_pos rfl, hp]
    · rw [if_neg hx, hm, if_neg hx]

/-- The transition probabilities: `slow_reversible_propose` chooses uniformly from a list without repetitions that contains every
possible move exactly once. -/
theorem C57_uniform (G : Graph V) (hG : G.WF) (a : Assignment V P) (hcov : a.Covers G.nodes) :
    (flipPairs a (cutsOf G a.mapping)).Nodup ∧ ∀ v q, (v, q) ∈ flipPairs a (cutsOf G a.mapping) ↔ CanMove G a.mapping v q :=
  ⟨List.nodup_dedup _, fun _ _ => mem_flipPairs hG hcov⟩

/-! ### Chains and examples -/

theorem flipProposal_of_with {α : Type} {k : Key} {conv : Val V P → Py α}
    {f : Graph V → Assignment V P → α → M X (Option (Dict V P))} {limit : ℕ} {g : ℕ → M (World V P X) ℕ}
    (hg : ∀ st, g st = proposeWith k conv f limit st)
    (hf : ∀ G a y w flips w', f G a y w = (.ok (some flips), w') → flips.WF) : FlipProposal g := by
  rw [funext hg]
  exact proposeWith_flipProposal hf

/-- all the proposals return the partition or flip it, as the theorems about chains (C61, C58) require -/
theorem flipProposals (R : Rand X) (limit : ℕ) :
    FlipProposal (proposeRandomFlip R limit : ℕ → M (World V P X) ℕ) ∧
    FlipProposal (slowReversiblePropose R limit : ℕ → M (World V P X) ℕ) ∧
    FlipProposal (slowReversibleProposeBi R limit : ℕ → M (World V P X) ℕ) ∧
    FlipProposal (proposeChunkFlip R limit : ℕ → M (World V P X) ℕ) := by
  refine ⟨flipProposal_of_with (fun _ => rfl) ?_, flipProposal_of_with (fun _ => rfl) ?_, flipProposal_of_with (fun _ => rfl) ?_,
    flipProposal_of_with (fun _ => rfl) ?_⟩
  · intro G a y w flips w' h
    unfold randomFlip at h
    by_cases hc : y = ∅
    · rw [if_pos hc] at h; cases h
    rw [if_neg hc] at h
    obtain ⟨e, w1, h1, g1⟩ := M.bind_eq_ok h
    obtain ⟨x, w2, h2, g2⟩ := M.bind_eq_ok g1
    obtain ⟨p, w3, h3, g3⟩ := M.bind_eq_ok g2
    cases g3
    exact one_wf _ _
  · intro G a y w flips w' h
    obtain ⟨f, w1, h1, g1⟩ := M.bind_eq_ok h
    cases g1
    unfold slowFlip at h1
    obtain ⟨x, w2, h2, g2⟩ := M.bind_eq_ok h1
    cases g2
    exact one_wf _ _
  · intro G a y w flips w' h
    obtain ⟨f, w1, h1, g1⟩ := M.bind_eq_ok h
    cases g1
    unfold slowFlipBi at h1
    obtain ⟨n, w2, h2, g2⟩ := M.bind_eq_ok h1
    obtain ⟨own, w3, h3, g3⟩ := M.bind_eq_ok g2
    by_cases ho : own ∈ ((iter (G.neighbors n)).filterMap a.mapping.get?).dedup
    · rw [if_pos ho] at g3
      obtain ⟨l, w4, h4, g4⟩ := M.bind_eq_ok g3
      cases g4
      exact one_wf _ _
    · rw [if_neg ho] at g3; cases g3
  · intro G a y w flips w' h
    obtain ⟨f, w1, h1, g1⟩ := M.bind_eq_ok h
    cases g1
    unfold chunkFlip at h1
    obtain ⟨e, w1, h1, g1⟩ := M.bind_eq_ok h1
    obtain ⟨x, w2, h2, g2⟩ := M.bind_eq_ok g1
    obtain ⟨p, w3, h3, g3⟩ := M.bind_eq_ok g2
    cases g3
    exact Dict.wf_empty.assignAll _ _

/-- the plan of an example run -/
def flipRun (prop : ℕ → M (World ℕ ℕ (List ℕ)) ℕ) (tape : List ℕ) : Option (ℕ × Option (List (ℕ × ℕ))) :=
  let r := prop 0 (Heap.after { exData with graph := exLine } exUps [.create linePlan.mapping], tape)
  r.1.toOption.map (fun q => (q, (r.2.1.frame.view q).map (fun v => v.assignment.mapping.entries)))

/-- the proposals run on partition objects -/
example :
    flipRun (proposeRandomFlip tapeRand 20) [1, 1] = some (1, some [(0, 1), (1, 1), (2, 2), (3, 2), (4, 2), (5, 3)]) ∧
    flipRun (slowReversiblePropose tapeRand 20) [0] = some (1, some [(0, 1), (1, 2), (2, 2), (3, 2), (4, 3), (5, 3)]) ∧
    flipRun (slowReversibleProposeBi tapeRand 20) [2] = some (1, some [(0, 1), (1, 1), (2, 2), (3, 3), (4, 3), (5, 3)]) ∧
    flipRun (proposeChunkFlip tapeRand 20) [0, 0] = some (1, some [(0, 1), (1, 1), (2, 1), (3, 2), (4, 3), (5, 3)]) ∧
    flipRun (proposeFlipEveryDistrict tapeRand 20) [0, 1, 1, 1, 0, 1] =
      some (1, some [(0, 1), (1, 1), (2, 1), (3, 2), (4, 2), (5, 3)]) := by
  refine ⟨by decide +kernel, by decide +kernel, by decide +kernel, by decide +kernel, by decide +kernel⟩

/-- C57: moving node 2 to district 1 and back -/
example : ∃ a b, SlowStep exLine a b ∧ a.Coherent ∧ a.Covers exLine.nodes ∧ b.mapping.get? 2 = some 1 ∧
    (∀ v, b.mapping.get? v ≠ a.mapping.get? v → ∃ u, u ≠ v ∧ exLine.Adj v u ∧ a.mapping.get? u = a.mapping.get? v) := by
  obtain ⟨b, hb⟩ : ∃ b, linePlan.flip ⟨[(2, 1)]⟩ = .ok b := ⟨_, rfl⟩
  have hcan : CanMove exLine linePlan.mapping 2 1 := ⟨⟨2, by decide, by decide⟩, 1, by decide, by decide⟩
  obtain ⟨-, w, w', h⟩ := C45_complete exLine_wf linePlan_covers hcan
  refine ⟨linePlan, b, ⟨tapeRand, w, w', _, tapeRand_valid, h, hb⟩, linePlan_coherent, linePlan_covers, ?_, fun v hv => ?_⟩
  · rw [movedTo_of_flip linePlan_coherent hb]; rfl
  · rw [movedTo_of_flip linePlan_coherent hb] at hv
    by_cases h2 : v = 2
    · subst h2; exact ⟨3, by decide, by decide, by decide⟩
    · rw [if_neg h2] at hv; exact absurd rfl hv

end GC

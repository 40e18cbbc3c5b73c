import Verif.Model.Recom
import Verif.Props.ChainInvariant
import Verif.Props.Recursive
import Verif.Props.Spanning

/-!
# ReCom proposals (C38, C39, C40)
-/

set_option linter.unusedSectionVars false
set_option autoImplicit false

namespace GC

variable {V P S X : Type} [LinearOrder V] [LinearOrder P]

/-! ### What a recombination is -/

/-- Plan `b` is obtained from plan `a` by merging the districts `p` and `q`, which are joined by an edge, and splitting their
union again into two connected districts within `eps` of the target. -/
structure Recombined (G : Graph V) (pop : V → ℚ) (target eps : ℚ) (p q : P) (a b : Assignment V P) : Prop where
  ne : p ≠ q
  joined : ∃ u v, G.Adj u v ∧ a.mapping.get? u = some p ∧ a.mapping.get? v = some q
  inside : ∀ v, a.mapping.get? v = some p ∨ a.mapping.get? v = some q → b.mapping.get? v = some p ∨ b.mapping.get? v = some q
  outside : ∀ v, a.mapping.get? v ≠ some p → a.mapping.get? v ≠ some q → b.mapping.get? v = a.mapping.get? v
  keys : b.parts.keys = a.parts.keys
  others : ∀ x, x ≠ p → x ≠ q → b.parts.get? x = a.parts.get? x
  new : ∀ x, x = p ∨ x = q → ∃ s, b.parts.get? x = some s ∧ s.Nonempty ∧ ConnectedOn G s ∧
    target * (1 - eps) ≤ ∑ v ∈ s, pop v ∧ ∑ v ∈ s, pop v ≤ target * (1 + eps)

theorem Recombined.symm {G : Graph V} {pop : V → ℚ} {target eps : ℚ} {p q : P} {a b : Assignment V P}
    (h : Recombined G pop target eps p q a b) : Recombined G pop target eps q p a b := by
  refine ⟨h.ne.symm, ?_, fun v hv => (h.inside v hv.symm).symm, fun v h1 h2 => h.outside v h2 h1, h.keys,
    fun x h1 h2 => h.others x h2 h1, fun x hx => h.new x hx.symm⟩
  obtain ⟨u, v, h1, h2, h3⟩ := h.joined
  exact ⟨v, u, h1.symm, h3, h2⟩

/-- contiguity is preserved -/
theorem Recombined.contiguous {G : Graph V} {pop : V → ℚ} {target eps : ℚ} {p q : P} {a b : Assignment V P}
    (h : Recombined G pop target eps p q a b) (hc : ContiguousPlan G a) : ContiguousPlan G b := by
  intro x s hs
  by_cases hx : x = p ∨ x = q
  · obtain ⟨t, h1, -, h2, -⟩ := h.new x hx
    rw [hs] at h1; cases h1
    exact h2
  · rw [not_or] at hx
    rw [h.others x hx.1 hx.2] at hs
    exact hc x s hs

/-- Two connected sets joined by an edge form a connected set. -/
theorem connectedOn_union {G : Graph V} {s t : Finset V} (hs : ConnectedOn G s) (ht : ConnectedOn G t) {u v : V} (hu : u ∈ s)
    (hv : v ∈ t) (ha : G.Adj u v) : ConnectedOn G (s ∪ t) := by
  refine connectedOn_of_root (r := u) (Finset.mem_union_left _ hu) (fun x hx => ?_)
  rcases Finset.mem_union.1 hx with hx | hx
  · exact (hs.2 u hu x hx).mono Finset.subset_union_left
  · exact ReachIn.trans (Relation.ReflTransGen.single ⟨ha, Finset.mem_union_left _ hu, Finset.mem_union_right _ hv⟩)
      ((ht.2 v hv x hx).mono Finset.subset_union_right)

/-- The flips of a split of two districts lead to a recombination. -/
theorem recombined_of_split {G : Graph V} {pop : V → ℚ} {target eps : ℚ} {p q : P} {a b : Assignment V P} (ha : a.Coherent)
    (hpq : p ≠ q) {s t : Finset V} (hs : a.parts.get? p = some s) (ht : a.parts.get? q = some t)
    (hj : ∃ u v, G.Adj u v ∧ a.mapping.get? u = some p ∧ a.mapping.get? v = some q) {f : Dict V P} (hf : f.WF)
    (hout : ∀ v, v ∉ s ∪ t → f.get? v = none) (hin : ∀ v ∈ s ∪ t, f.get? v = some p ∨ f.get? v = some q)
    (hd : ∀ x, x = p ∨ x = q → ∀ D : Finset V, (∀ v, v ∈ D ↔ f.get? v = some x) →
      ConnectedOn G D ∧ target * (1 - eps) ≤ ∑ v ∈ D, pop v ∧ ∑ v ∈ D, pop v ≤ target * (1 + eps))
    (hb : a.flip f = .ok b) : Recombined G pop target eps p q a b := by
  have hfs := flip_ok ha hf hb
  have hms := ha.agree p s hs
  have hmt := ha.agree q t ht
  refine ⟨hpq, hj, ?_, ?_, hfs.keys, ?_, ?_⟩
  · intro v hv
    have hv' : v ∈ s ∪ t := by rw [Finset.mem_union, hms, hmt]; exact hv
    rw [hfs.get?]
    rcases hin v hv' with h | h <;> rw [h] <;> simp
  · intro v h1 h2
    rw [hfs.get?, hout v]
    · rfl
    · rw [Finset.mem_union, hms, hmt]; tauto
  · intro x hx1 hx2
    rcases hbx : b.parts.get? x with _ | r
    · rcases hax : a.parts.get? x with _ | r'
      · rfl
      · exfalso
        have : x ∈ b.parts.keys := by rw [hfs.keys]; exact Dict.mem_keys_iff.2 ⟨_, hax⟩
        obtain ⟨z, hz⟩ := Dict.mem_keys_iff.1 this
        rw [hbx] at hz; cases hz
    · have : x ∈ a.parts.keys := by rw [← hfs.keys]; exact Dict.mem_keys_iff.2 ⟨_, hbx⟩
      obtain ⟨r', hr'⟩ := Dict.mem_keys_iff.1 this
      rw [hr']
      congr 1
      ext v
      rw [hfs.coherent.agree x r hbx, ha.agree x r' hr', hfs.get?]
      by_cases hv : v ∈ s ∪ t
      · have h1 : a.mapping.get? v ≠ some x := by
          rw [Finset.mem_union, hms, hmt] at hv
          rcases hv with hv | hv <;> rw [hv] <;> simp <;> tauto
        rcases hin v hv with h | h <;> rw [h] <;> simp <;> tauto
      · rw [hout v hv]; rfl
  · intro x hx
    have hxa : x ∈ a.parts.keys := by
      rcases hx with rfl | rfl
      · exact Dict.mem_keys_iff.2 ⟨_, hs⟩
      · exact Dict.mem_keys_iff.2 ⟨_, ht⟩
    rw [← hfs.keys] at hxa
    obtain ⟨r, hr⟩ := Dict.mem_keys_iff.1 hxa
    have hmem : ∀ v, v ∈ r ↔ f.get? v = some x := by
      intro v
      rw [hfs.coherent.agree x r hr, hfs.get?]
      by_cases hv : v ∈ s ∪ t
      · rcases hin v hv with h | h <;> rw [h] <;> simp
      · rw [hout v hv]
        simp only [Option.none_or, reduceCtorEq, iff_false]
        rw [Finset.mem_union, hms, hmt] at hv
        rcases hx with rfl | rfl <;> tauto
    obtain ⟨h1, h2, h3⟩ := hd x hx r hmem
    exact ⟨r, hr, h1.1, h1, h2, h3⟩

/-! ### The loop of `recom` -/

/-- what `recom` needs to know about its method: on connected graphs it returns connected sets with connected complements -/
def GoodMethod (method : Method V S) : Prop :=
  ∀ H t e o w A w', H.WF → ConnectedOn H H.nodes → method H t e o w = (.ok (some A), w') →
    A ⊆ H.nodes ∧ ConnectedOn H A ∧ ConnectedOn H (H.nodes \ A)

theorem GoodMethod.conn {method : Method V S} (h : GoodMethod method) : MethodConn method :=
  fun H t e o w A w' hH hc hm => (h H t e o w A w' hH hc hm).2

theorem GoodMethod.sub {method : Method V S} (h : GoodMethod method) {G : Graph V} (hG : G.WF) :
    MethodSubI (ConnectedOn G) G method := by
  intro R t e o w A w' hR hI hm
  obtain ⟨h1, -, h3⟩ := h _ t e o w A w' (hG.subgraph R) ((connectedOn_subgraph hR).2 hI) hm
  obtain ⟨hn, -⟩ := method_on_subgraph (G := G) hR (A := R)
  obtain ⟨-, hc'⟩ := method_on_subgraph (G := G) hR (A := R \ A)
  rw [hn] at h1 h3
  exact ⟨h1, (hc' Finset.sdiff_subset).1 h3⟩

theorem assignPart_wf {pop : V → ℚ} {target eps : ℚ} {flips f : Dict V P} {nodes : Finset V} {part : P} {x : ℚ}
    (hf : flips.WF) (h : assignPart pop target eps flips nodes part = .ok (f, x)) : f.WF := by
  unfold assignPart at h
  simp only at h
  split at h
  · have gen : ∀ (l : List V) (st : Dict V P × ℚ), st.1.WF →
        (l.foldl (fun st v => (st.1.set v part, st.2 + pop v)) st).1.WF := by
      intro l
      induction l with
      | nil => intro st h; exact h
      | cons v l ih => intro st h; exact ih _ (h.set v part)
    have h1 := gen (iter nodes) (flips, 0) hf
    rw [Except.ok.inj h] at h1
    exact h1
  · cases h

theorem epsilon_wf {method : Method V S} {G : Graph V} {parts : List P} {pop : V → ℚ} {target eps : ℚ} {w w' : S}
    {f : Dict V P} (h : epsilonTreeBipartition method G parts pop target eps w = (.ok f, w')) : f.WF := by
  unfold epsilonTreeBipartition at h
  rcases parts with _ | ⟨p, _ | ⟨q, _ | ⟨r, rest⟩⟩⟩
  · cases h
  · cases h
  · simp only at h
    unfold lastTwo at h
    obtain ⟨r, w1, h1, g1⟩ := M.bind_eq_ok h
    obtain ⟨A, w2, h2, g2⟩ := M.bind_eq_ok g1
    obtain ⟨⟨f1, x1⟩, w3, h3, g3⟩ := M.bind_eq_ok g2
    obtain ⟨⟨f2, x2⟩, w4, h4, g4⟩ := M.bind_eq_ok g3
    cases g4
    exact assignPart_wf (assignPart_wf Dict.wf_empty (M.lift_eq_ok h3).1) (M.lift_eq_ok h4).1
  · cases h

theorem endLabels_ok {a : Assignment V P} {e : V × V} {pq : P × P} (h : endLabels a e = .ok pq) :
    a.mapping.get? e.1 = some pq.1 ∧ a.mapping.get? e.2 = some pq.2 := by
  unfold endLabels at h
  rw [Py.bind_eq_ok] at h
  obtain ⟨p, h1, h⟩ := h
  rw [Py.bind_eq_ok] at h
  obtain ⟨q, h2, h⟩ := h
  cases h
  exact ⟨Dict.get_eq_ok_iff.1 h1, Dict.get_eq_ok_iff.1 h2⟩

theorem mergedNodes_ok {a : Assignment V P} {p q : P} {s : Finset V} (h : mergedNodes a p q = .ok s) :
    ∃ s1 s2, a.parts.get? p = some s1 ∧ a.parts.get? q = some s2 ∧ s = s1 ∪ s2 := by
  unfold mergedNodes at h
  rw [Py.bind_eq_ok] at h
  obtain ⟨p, h1, h⟩ := h
  rw [Py.bind_eq_ok] at h
  obtain ⟨q, h2, h⟩ := h
  cases h
  exact ⟨_, _, Dict.get_eq_ok_iff.1 h1, Dict.get_eq_ok_iff.1 h2, rfl⟩

theorem M.bind_eq_error {α β : Type} {m : M S α} {f : α → M S β} {s s' : S} {e : PyErr} (h : (m >>= f) s = (.error e, s')) :
    m s = (.error e, s') ∨ ∃ a s1, m s = (.ok a, s1) ∧ f a s1 = (.error e, s') := by
  have h' : M.bind m f s = (.error e, s') := h
  unfold M.bind at h'
  rcases hm : m s with ⟨e' | a, s1⟩ <;> rw [hm] at h' <;> simp only at h'
  · cases h'; exact .inl rfl
  · exact .inr ⟨a, s1, rfl, h'⟩

theorem M.onReselect_eq {α : Type} {m h : M S α} {w w' : S} {r : Py α} (hr : M.onReselect m h w = (r, w')) :
    (∃ w1, m w = (.error .reselectException, w1) ∧ h w1 = (r, w')) ∨ (m w = (r, w') ∧ r ≠ .error .reselectException) := by
  unfold M.onReselect at hr
  rcases hm : m w with ⟨e | a, w1⟩ <;> rw [hm] at hr
  · cases e <;> first | exact .inl ⟨w1, rfl, hr⟩ | (cases hr; exact .inr ⟨rfl, by simp⟩)
  · cases hr; exact .inr ⟨rfl, by simp⟩

/-- A result of the loop is the result of one call of `epsilon_tree_bipartition`, on the districts of a cut edge. -/
theorem recomLoop_ok {R : Rand S} (hR : R.Valid) {method : Method V S} {G : Graph V} {a : Assignment V P}
    {cuts : Finset (V × V)} {pop : V → ℚ} {target eps : ℚ} {fuel : ℕ} {bad : Finset (P × P)} {w w' : S} {f : Dict V P}
    (h : recomLoop R method G a cuts pop target eps fuel bad w = (.ok f, w')) :
    ∃ e ∈ cuts, ∃ pq w1, endLabels a e = .ok pq ∧ recomPair method G a pop target eps (sortPair pq) w1 = (.ok f, w') := by
  induction fuel generalizing bad w with
  | zero => cases h
  | succ n ih =>
    unfold recomLoop at h
    split at h
    · obtain ⟨e, w1, h1, g1⟩ := M.bind_eq_ok h
      obtain ⟨pq, w2, h2, g2⟩ := M.bind_eq_ok g1
      obtain ⟨h2, rfl⟩ := M.lift_eq_ok h2
      by_cases hbad : sortPair pq ∈ bad
      · rw [if_pos hbad] at g2
        exact ih g2
      · rw [if_neg hbad] at g2
        rcases M.onReselect_eq g2 with ⟨w3, -, k⟩ | ⟨k, -⟩
        · exact ih k
        · exact ⟨e, mem_iterE.1 (hR.choice_ok h1), pq, w1, by assumption, k⟩
    · cases h

theorem sortPair_cases {α : Type} [LinearOrder α] (x : α × α) : sortPair x = x ∨ sortPair x = (x.2, x.1) := by
  unfold sortPair; split <;> simp

/-- The flips found for one pair of connected districts joined by an edge recombine the two districts. -/
theorem recomPair_recombined {method : Method V S} (hm : GoodMethod method) {G : Graph V} (hG : G.WF) {a b : Assignment V P}
    (ha : a.Coherent) (hcov : a.Covers G.nodes) (hc : ContiguousPlan G a) {pop : V → ℚ} {target eps : ℚ} {p q : P} (hpq : p ≠ q)
    (hj : ∃ u v, G.Adj u v ∧ a.mapping.get? u = some p ∧ a.mapping.get? v = some q) {w w' : S} {f : Dict V P}
    (h : recomPair method G a pop target eps (p, q) w = (.ok f, w')) (hb : a.flip f = .ok b) :
    Recombined G pop target eps p q a b := by
  unfold recomPair at h
  obtain ⟨u, w1, h1, h2⟩ := M.bind_eq_ok h
  obtain ⟨h1', rfl⟩ := M.lift_eq_ok h1
  obtain ⟨s, t, hs, ht, rfl⟩ := mergedNodes_ok h1'
  have hms := ha.agree p s hs
  have hmt := ha.agree q t ht
  have hsub : s ∪ t ⊆ G.nodes := by
    intro v hv
    rw [← hcov v, Dict.mem_keys_iff]
    rw [Finset.mem_union, hms, hmt] at hv
    rcases hv with hv | hv <;> exact ⟨_, hv⟩
  have hconn : ConnectedOn G (s ∪ t) := by
    obtain ⟨u, v, h3, h4, h5⟩ := hj
    exact connectedOn_union (hc p s hs) (hc q t ht) ((hms u).2 h4) ((hmt v).2 h5) h3
  have hconnH := (connectedOn_subgraph (G := G) hsub).2 hconn
  have hn : (G.subgraph (s ∪ t)).nodes = s ∪ t := (method_on_subgraph (G := G) hsub (A := ∅)).1
  have hsplit := lastTwo_split (I := ConnectedOn (G.subgraph (s ∪ t))) (hm.sub (hG.subgraph _)) (hG.subgraph _)
    (Finset.Subset.refl _) hconnH (p := p) (q := q) (flips := Dict.empty) h2
  rw [hn] at hsplit
  rw [hn] at hconnH
  have hnd : [p, q].Nodup := by simpa using hpq
  refine recombined_of_split ha hpq hs ht hj (epsilon_wf h2) (fun v hv => hsplit.frame v hv) ?_ ?_ hb
  · intro v hv
    obtain ⟨x, hx, hfx⟩ := hsplit.cover v hv
    simp only [List.mem_cons, List.not_mem_nil, or_false] at hx
    rcases hx with rfl | rfl
    · exact .inl hfx
    · exact .inr hfx
  · intro x hx D hD
    have hxm : x ∈ [p, q] := by simpa using hx
    have hDe : D = districtIn (s ∪ t) f x := by
      ext v
      rw [hD]
      unfold districtIn
      rw [Finset.mem_filter]
      constructor
      · intro hv
        refine ⟨?_, hv⟩
        by_contra hn
        rw [hsplit.frame v hn] at hv
        cases hv
      · exact And.right
    have h4 := hsplit.conn ⟨hm.conn, hconnH⟩ hnd x hxm
    have h5 := hsplit.pop hnd x hxm
    have hDs : D ⊆ s ∪ t := by rw [hDe]; exact Finset.filter_subset _ _
    rw [← hDe] at h4 h5
    refine ⟨((method_on_subgraph (G := G) hsub (A := D)).2 hDs).1 h4, ?_⟩
    unfold PopOk popOf at h5
    exact h5

/-! ### C38 -/

/-- the cut edges join different districts -/
theorem ends_of_cut {G : Graph V} {a : Assignment V P} {e : V × V} {pq : P × P} (he : e ∈ cutsOf G a.mapping)
    (hpq : endLabels a e = .ok pq) : (sortPair pq).1 ≠ (sortPair pq).2 ∧
      ∃ u v, G.Adj u v ∧ a.mapping.get? u = some (sortPair pq).1 ∧ a.mapping.get? v = some (sortPair pq).2 := by
  obtain ⟨h1, h2⟩ := endLabels_ok hpq
  obtain ⟨h3, h4⟩ := mem_cutsOf.1 he
  have hne : pq.1 ≠ pq.2 := by
    intro h; apply h4; rw [h1, h2, h]
  have hadj : G.Adj e.1 e.2 := h3.2
  rcases sortPair_cases pq with h | h <;> rw [h]
  · exact ⟨hne, _, _, hadj, h1, h2⟩
  · exact ⟨hne.symm, _, _, hadj.symm, h2, h1⟩

/-- **C38** on assignments: whatever the loop of `recom` returns on a contiguous plan recombines two districts joined by a cut
edge. -/
theorem C38_loop {R : Rand S} (hR : R.Valid) {method : Method V S} (hm : GoodMethod method) {G : Graph V} (hG : G.WF)
    {a b : Assignment V P} (ha : a.Coherent) (hcov : a.Covers G.nodes) (hc : ContiguousPlan G a) {pop : V → ℚ} {target eps : ℚ}
    {fuel : ℕ} {bad : Finset (P × P)} {w w' : S} {f : Dict V P}
    (h : recomLoop R method G a (cutsOf G a.mapping) pop target eps fuel bad w = (.ok f, w')) (hb : a.flip f = .ok b) :
    ∃ p q, Recombined G pop target eps p q a b := by
  obtain ⟨e, he, pq, w1, h1, h2⟩ := recomLoop_ok hR h
  obtain ⟨hne, hj⟩ := ends_of_cut he h1
  exact ⟨_, _, recomPair_recombined hm hG ha hcov hc hne hj h2 hb⟩

theorem M.onRest_eq {α : Type} {m : M X α} {s s1 : World V P X} {r : Py α} (h : M.onRest (V := V) (P := P) m s = (r, s1)) :
    m s.2 = (r, s1.2) ∧ s1.1 = s.1 := by
  unfold M.onRest at h
  cases h
  exact ⟨rfl, rfl⟩

theorem viewObj_eq {st : ℕ} {s s1 : World V P X} {r : Py (View V P)} (h : viewObj st s = (r, s1)) :
    s1 = s ∧ ∀ v, r = .ok v ↔ s.1.frame.view st = some v := by
  unfold viewObj at h
  rcases hv : s.1.frame.view st with _ | v <;> rw [hv] at h <;> cases h <;> simp [eq_comm]

theorem flipObj_eq {st : ℕ} {flips : Dict V P} {s s1 : World V P X} {r : Py ℕ} (h : flipObj st flips s = (r, s1)) :
    (∃ F, s.1.frame.flip st flips = .ok F ∧ r = .ok s.1.frame.objs.length ∧ s1.1 = ⟨F, s.1.caches⟩) ∨
    (∃ e, r = .error e ∧ s1 = s) := by
  unfold flipObj at h
  rcases hf : s.1.frame.flip st flips with e | F <;> rw [hf] at h <;> cases h
  · exact .inr ⟨e, rfl, rfl⟩
  · exact .inl ⟨F, rfl, rfl, rfl⟩

/-- what `recom` does to the heap when it returns -/
theorem recom_ok {R : Rand X} {method : Method V X} {pop : V → ℚ} {target eps : ℚ} {fuel limit st q : ℕ} {s s1 : World V P X}
    (h : recom R method pop target eps fuel limit st s = (.ok q, s1)) :
    ∃ v cuts flips F w', s.1.frame.view st = some v ∧ totPairs v.assignment.parts.keys.length ≠ 0 ∧
      (getitem s.1.frame limit .cutEdges st s.1.caches).1 = .ok (.edgeSet cuts) ∧
      recomLoop R method s.1.frame.data.graph v.assignment cuts pop target eps fuel ∅ s.2 = (.ok flips, w') ∧
      s.1.frame.flip st flips = .ok F ∧ q = s.1.frame.objs.length ∧
      s1.1 = ⟨F, (s.1.step (.lookup st .cutEdges limit)).caches⟩ := by
  unfold recom at h
  obtain ⟨v, w1, h1, g1⟩ := M.bind_eq_ok h
  obtain ⟨hw1, hv⟩ := viewObj_eq h1
  obtain ⟨w, w2, h2, g2⟩ := M.bind_eq_ok g1
  have hw2 : w = s ∧ w2 = s := by rw [← hw1]; cases h2; exact ⟨rfl, rfl⟩
  rw [hw2.1, hw2.2] at g2
  by_cases ht : totPairs v.assignment.parts.keys.length = 0
  · rw [if_pos ht] at g2; cases g2
  rw [if_neg ht] at g2
  obtain ⟨x, w3, h3, g3⟩ := M.bind_eq_ok g2
  obtain ⟨cuts, w4, h4, g4⟩ := M.bind_eq_ok g3
  obtain ⟨h4', rfl⟩ := M.lift_eq_ok h4
  obtain ⟨flips, w5, h5, g5⟩ := M.bind_eq_ok g4
  obtain ⟨h6, h7⟩ := M.onRest_eq h5
  unfold lookupKey at h3
  have hx : x = .edgeSet cuts := by
    unfold Val.asEdgeSet at h4'
    cases x <;> cases h4'
    rfl
  subst hx
  have e1 := (Prod.mk.inj h3).1
  have e2 := (Prod.mk.inj h3).2
  rcases flipObj_eq g5 with ⟨F, k1, k2, k3⟩ | ⟨e, k1, -⟩
  · have hfr : w5.1.frame = s.1.frame := by rw [h7, ← e2]; rfl
    refine ⟨v, cuts, flips, F, w5.2, (hv v).1 rfl, ht, e1, ?_, ?_, ?_, ?_⟩
    · rw [← e2] at h6; exact h6
    · rw [← hfr]; exact k1
    · rw [← hfr]; exact Except.ok.inj k2
    · rw [k3, h7, ← e2]
  · cases k1

/-- `recom` is one of the proposals covered by the theorems on chains. -/
theorem recom_flipProposal {R : Rand X} (hR : R.Valid) {method : Method V X} {pop : V → ℚ} {target eps : ℚ} {fuel limit : ℕ} :
    FlipProposal (recom R method pop target eps fuel limit : ℕ → M (World V P X) ℕ) := by
  constructor
  · intro st s q s1 h
    obtain ⟨v, cuts, flips, F, w', -, -, -, h4, h5, h6, h7⟩ := recom_ok h
    obtain ⟨e, -, pq, w1, -, k2⟩ := recomLoop_ok hR h4
    unfold recomPair at k2
    obtain ⟨u, w2, -, k3⟩ := M.bind_eq_ok k2
    refine ⟨[.lookup st .cutEdges limit], by simp [Op.IsLookup], .inr ⟨flips, F, epsilon_wf k3, h5, h7, h6⟩⟩
  · intro st s e s1 h
    unfold recom at h
    rcases M.bind_eq_error h with h1 | ⟨v, w1, h1, g1⟩
    · exact ⟨[], by simp, by rw [(viewObj_eq h1).1]; rfl⟩
    obtain ⟨rfl, hv⟩ := viewObj_eq h1
    rcases M.bind_eq_error g1 with h2 | ⟨w, w2, h2, g2⟩
    · cases h2
    cases h2
    by_cases ht : totPairs v.assignment.parts.keys.length = 0
    · rw [if_pos ht] at g2; cases g2; exact ⟨[], by simp, rfl⟩
    rw [if_neg ht] at g2
    refine ⟨[.lookup st .cutEdges limit], by simp [Op.IsLookup], ?_⟩
    rcases M.bind_eq_error g2 with h3 | ⟨x, w3, h3, g3⟩
    · rw [← (Prod.mk.inj h3).2]; rfl
    have e2 := (Prod.mk.inj h3).2
    rcases M.bind_eq_error g3 with h4 | ⟨cuts, w4, h4, g4⟩
    · rw [← (Prod.mk.inj h4).2, ← e2]; rfl
    obtain ⟨-, rfl⟩ := M.lift_eq_ok h4
    rcases M.bind_eq_error g4 with h5 | ⟨flips, w5, h5, g5⟩
    · rw [(M.onRest_eq h5).2, ← e2]; rfl
    rcases flipObj_eq g5 with ⟨F, -, k2, -⟩ | ⟨e, -, k2⟩
    · cases k2
    · rw [k2, (M.onRest_eq h5).2, ← e2]; rfl

/-- **C38** Whenever `recom` returns on a contiguous plan, it returns a new child of the partition whose plan differs only
inside the union of two districts joined by an edge; the two new districts are nonempty, connected and within `eps` of the
target, all other districts and the set of labels are unchanged, and the new plan is contiguous. -/
theorem C38_recom (R : Rand X) (hR : R.Valid) (method : Method V X) (hm : GoodMethod method) (pop : V → ℚ) (target eps : ℚ)
    (fuel limit st q : ℕ) (s s1 : World V P X) (hs : HeapInv s.1) (v : View V P) (hv : s.1.frame.view st = some v)
    (hc : ContiguousPlan s.1.frame.data.graph v.assignment)
    (h : recom R method pop target eps fuel limit st s = (.ok q, s1)) :
    ∃ w, s1.1.frame.view q = some w ∧ w.parent = some st ∧ (∀ v', s.1.frame.view q ≠ some v') ∧
      (∃ p p', Recombined s.1.frame.data.graph pop target eps p p' v.assignment w.assignment) ∧
      ContiguousPlan s.1.frame.data.graph w.assignment ∧
      w.assignment.parts.keys.length = v.assignment.parts.keys.length := by
  obtain ⟨v', cuts, flips, F, w', h1, h2, h3, h4, h5, h6, h7⟩ := recom_ok h
  rw [hv] at h1; cases h1
  have hcor := getitem_sat hs.frame limit .cutEdges st _ hs.caches
  rcases hg : getitem s.1.frame limit .cutEdges st s.1.caches with ⟨r, c'⟩
  rw [hg] at hcor h3
  simp only at h3
  subst h3
  obtain ⟨-, v2, hv2, hcc⟩ := hcor
  rw [hv] at hv2; cases hv2
  have hcuts : cuts = cutsOf s.1.frame.data.graph v.assignment.mapping := hcc
  subst hcuts
  obtain ⟨e, he, pq, w1, k1, k2⟩ := recomLoop_ok hR h4
  have hwf : flips.WF := by
    have k2' := k2
    unfold recomPair at k2'
    obtain ⟨u, w2, -, k3⟩ := M.bind_eq_ok k2'
    exact epsilon_wf k3
  obtain ⟨-, -, v3, b, hv3, hb, w, hw, hwb, hwp⟩ := hs.frame.flip hwf h5
  rw [hv] at hv3; cases hv3
  obtain ⟨p, p', hrec⟩ := C38_loop hR hm hs.frame.graph (hs.frame.coherent _ _ hv) (hs.frame.covers _ _ hv) hc h4 hb
  subst hwb
  refine ⟨w, ?_, hwp, ?_, ⟨p, p', hrec⟩, hrec.contiguous hc, by rw [hrec.keys]⟩
  · rw [h7, h6]; exact hw
  · intro v' hv'
    have := Frame.lt_of_view hv'
    omega

end GC

import Verif.Model.Spectral
import Verif.Lemmas.Fiedler
import Verif.Lemmas.EighExists
import Verif.Props.Recom
import Verif.Props.ReversibleRecom

/-!
# Spectral ReCom (C78, C79)
-/

set_option linter.unusedSectionVars false
set_option autoImplicit false

namespace GC

variable {V P S : Type} [LinearOrder V] [LinearOrder P]

/-! ### The matrices -/

/-- all weights of edges of `G` are positive (an edge without the attribute counts as 1) -/
def PosWeights (G : Graph V) (w : EdgeWeights V) : Prop := ∀ e ∈ G.edges, ∀ x, w e = some x → 0 < x

theorem adjEntry_pos {G : Graph V} {w : EdgeWeights V} (hw : PosWeights G w) (u v : V) : 0 < adjEntry G w u v ↔ G.Adj u v := by
  unfold adjEntry Graph.Adj
  have key : ∀ e ∈ G.edges, 0 < (w e).getD 1 := fun e he => by
    rcases hx : w e with _ | x
    · simp
    · simpa using hw e he x hx
  by_cases h1 : (u, v) ∈ G.edges
  · simp [h1, key _ h1]
  · by_cases h2 : (v, u) ∈ G.edges
    · simp [h1, h2, key _ h2]
    · simp [h1, h2]

theorem adjEntry_nonneg {G : Graph V} {w : EdgeWeights V} (hw : PosWeights G w) (u v : V) : 0 ≤ adjEntry G w u v := by
  by_cases h : G.Adj u v
  · exact ((adjEntry_pos hw u v).2 h).le
  · unfold Graph.Adj at h
    rw [not_or] at h
    unfold adjEntry
    rw [if_neg h.1, if_neg h.2]

theorem adjEntry_symm {G : Graph V} (hG : G.WF) (w : EdgeWeights V) (u v : V) : adjEntry G w u v = adjEntry G w v u := by
  unfold adjEntry
  by_cases huv : u = v
  · rw [huv]
  by_cases h1 : (u, v) ∈ G.edges
  · rw [if_pos h1, if_neg (hG.asymm _ h1 huv), if_pos h1]
  · by_cases h2 : (v, u) ∈ G.edges
    · rw [if_neg h1, if_pos h2, if_pos h2]
    · rw [if_neg h1, if_neg h2, if_neg h2, if_neg h1]

/-- the weights between the listed nodes as real numbers -/
def listWeights (G : Graph V) (w : EdgeWeights V) (l : List V) (i j : Fin l.length) : ℝ := ((adjEntry G w (l.get i) (l.get j) : ℚ) : ℝ)

theorem linked_of_connected {G : Graph V} {w : EdgeWeights V} (hw : PosWeights G w) (hc : ConnectedOn G G.nodes) {l : List V} (hl : l.Nodup)
    (hn : ∀ v, v ∈ l ↔ v ∈ G.nodes) : Linked (listWeights G w l) := by
  intro S hS hS'
  have hmem : ∀ i : Fin l.length, l.get i ∈ G.nodes := fun i => (hn _).1 (List.get_mem _ _)
  have hinj : Function.Injective l.get := List.nodup_iff_injective_get.1 hl
  have hun : S.image l.get ∪ Sᶜ.image l.get = G.nodes := by
    ext v
    rw [← Finset.image_union, Finset.union_compl, ← hn, List.mem_iff_get]
    simp only [Finset.mem_image, Finset.mem_univ, true_and]
  obtain ⟨u, hu, v, hv, ha⟩ := exists_edge_between (G := G) (s := S.image l.get) (t := Sᶜ.image l.get) (by rw [hun]; exact hc) (hS.image _)
    (hS'.image _) (by
      rw [Finset.disjoint_image hinj]
      exact disjoint_compl_right)
  obtain ⟨i, hi, rfl⟩ := Finset.mem_image.1 hu
  obtain ⟨j, hj, rfl⟩ := Finset.mem_image.1 hv
  refine ⟨i, hi, j, hj, ?_⟩
  unfold listWeights
  exact_mod_cast (adjEntry_pos hw _ _).2 ha

/-- the scaling of the two Laplacians -/
noncomputable def scaleOf (normalized : Bool) (G : Graph V) (w : EdgeWeights V) (l : List V) (i : Fin l.length) : ℝ :=
  if normalized then invSqrtDegree G w l i else 1

theorem spectralMatrix_eq (normalized : Bool) (G : Graph V) (w : EdgeWeights V) (l : List V) :
    spectralMatrix normalized G w l = scaledLap (listWeights G w l) (scaleOf normalized G w l) := by
  have hr : ∀ i j, realLaplacian G w l i j = (if i = j then ∑ k, listWeights G w l i k else 0) - listWeights G w l i j := by
    intro i j
    unfold realLaplacian laplacianMatrix listWeights
    rw [Rat.cast_sub]
    congr 1
    split
    · rw [Rat.cast_sum]
    · exact Rat.cast_zero
  funext i j
  unfold spectralMatrix scaledLap scaleOf
  cases normalized
  · simp only [Bool.false_eq_true, if_false]
    rw [hr]; ring
  · simp only [if_true]
    unfold normalizedLaplacian
    rw [hr]; ring

theorem scaleOf_pos (normalized : Bool) {G : Graph V} {w : EdgeWeights V} (hw : PosWeights G w) (hc : ConnectedOn G G.nodes) {l : List V}
    (hl : l.Nodup) (hn : ∀ v, v ∈ l ↔ v ∈ G.nodes) (h1 : 1 < l.length) (i : Fin l.length) : 0 < scaleOf normalized G w l i := by
  unfold scaleOf
  cases normalized
  · simp
  · simp only [if_true]
    have hdeg : 0 < ∑ k, adjEntry G w (l.get i) (l.get k) := by
      obtain ⟨i', hi', j, -, hj⟩ := linked_of_connected hw hc hl hn {i} (Finset.singleton_nonempty _) (by
        rw [← Finset.card_pos, Finset.card_compl, Finset.card_singleton, Fintype.card_fin]; omega)
      rw [Finset.mem_singleton] at hi'
      subst hi'
      unfold listWeights at hj
      exact Finset.sum_pos' (fun k _ => adjEntry_nonneg hw _ _) ⟨j, Finset.mem_univ _, by exact_mod_cast hj⟩
    unfold invSqrtDegree
    rw [if_neg hdeg.ne']
    exact one_div_pos.2 (Real.sqrt_pos.2 (by exact_mod_cast hdeg))

/-- nodes that do not fall apart into two sets without an edge between them are connected -/
theorem connected_of_nodal {G : Graph V} {w : EdgeWeights V} (hw : PosWeights G w) {l : List V} {D : Finset V}
    (hD : ∀ v ∈ D, v ∈ l) (hne : D.Nonempty)
    (h : ∀ S1 S2 : Finset (Fin l.length), (∀ i, i ∈ S1 ∪ S2 ↔ l.get i ∈ D) → Disjoint S1 S2 → S1.Nonempty → S2.Nonempty →
      ∃ i ∈ S1, ∃ j ∈ S2, 0 < listWeights G w l i j) : ConnectedOn G D := by
  classical
  obtain ⟨r, hr⟩ := hne
  refine connectedOn_of_root hr fun v hv => ?_
  by_contra hno
  obtain ⟨ir, hir⟩ := List.mem_iff_get.1 (hD r hr)
  obtain ⟨iv, hiv⟩ := List.mem_iff_get.1 (hD v hv)
  obtain ⟨i, hi, j, hj, hij⟩ := h (Finset.univ.filter fun i => l.get i ∈ D ∧ ReachIn G D r (l.get i))
    (Finset.univ.filter fun i => l.get i ∈ D ∧ ¬ ReachIn G D r (l.get i)) (fun i => by
      simp only [Finset.mem_union, Finset.mem_filter, Finset.mem_univ, true_and]; tauto)
    (by
      rw [Finset.disjoint_left]
      intro i h1 h2
      exact (Finset.mem_filter.1 h2).2.2 (Finset.mem_filter.1 h1).2.2)
    ⟨ir, by simp only [Finset.mem_filter, Finset.mem_univ, true_and]; rw [hir]; exact ⟨hr, Relation.ReflTransGen.refl⟩⟩
    ⟨iv, by simp only [Finset.mem_filter, Finset.mem_univ, true_and]; rw [hiv]; exact ⟨hv, hno⟩⟩
  simp only [Finset.mem_filter, Finset.mem_univ, true_and] at hi hj
  refine hj.2 (hi.2.tail ⟨(adjEntry_pos hw _ _).1 ?_, hi.1, hj.1⟩)
  unfold listWeights at hij
  exact_mod_cast hij

/-! ### `clusters` -/

theorem clusters_wf {l : List V} (hl : l.Nodup) (h : 1 < l.length) (U : Matrix (Fin l.length) (Fin l.length) ℝ) (labels : P × P) :
    (clusters l h U labels).WF := by
  unfold Dict.WF Dict.keys clusters
  simp only [List.map_map]
  have : ((fun e : V × P => e.1) ∘ fun x : Fin l.length => (l.get x, if U x ⟨1, h⟩ > 0 then labels.2 else labels.1)) = l.get := rfl
  rw [this]
  exact (List.nodup_finRange _).map (List.nodup_iff_injective_get.1 hl)

theorem clusters_get {l : List V} (hl : l.Nodup) (h : 1 < l.length) (U : Matrix (Fin l.length) (Fin l.length) ℝ) (labels : P × P)
    (x : Fin l.length) : (clusters l h U labels).get? (l.get x) = some (if U x ⟨1, h⟩ > 0 then labels.2 else labels.1) := by
  refine Dict.get?_of_mem_entries (clusters_wf hl h U labels) ?_
  exact List.mem_map.2 ⟨x, List.mem_finRange _, rfl⟩

theorem clusters_none {l : List V} (h : 1 < l.length) (U : Matrix (Fin l.length) (Fin l.length) ℝ) (labels : P × P) {v : V}
    (hv : v ∉ l) : (clusters l h U labels).get? v = none := by
  rw [Dict.get?_eq_none_iff]
  intro hk
  unfold Dict.keys clusters at hk
  simp only [List.map_map, List.mem_map, List.mem_finRange, true_and] at hk
  obtain ⟨x, rfl⟩ := hk
  exact hv (List.get_mem _ _)

/-- A correct `eigh`: on every Laplacian of a graph it returns a matrix of orthonormal eigenvectors, sorted by eigenvalue. -/
def GoodEigh (V : Type) [LinearOrder V] (eigh : Eigh) : Prop :=
  ∀ (normalized : Bool) (G : Graph V) (w : EdgeWeights V), G.WF → PosWeights G w →
    ∃ vals, IsEigh (spectralMatrix normalized G w (iter G.nodes)) (eigh _ (spectralMatrix normalized G w (iter G.nodes))) vals

/-- The two sides of a spectral cut of a connected graph: both are nonempty; the side of the first label is connected; so is the side of the second
label together with the nodes whose entry is zero. -/
theorem clusters_sides (normalized : Bool) {G : Graph V} (hG : G.WF) {w : EdgeWeights V} (hw : PosWeights G w)
    (hc : ConnectedOn G G.nodes) {l : List V} (hl : l.Nodup) (hn : ∀ v, v ∈ l ↔ v ∈ G.nodes) (h1 : 1 < l.length)
    {U : Matrix (Fin l.length) (Fin l.length) ℝ} {vals : Fin l.length → ℝ} (hU : IsEigh (spectralMatrix normalized G w l) U vals) :
    (∃ i, 0 < U i ⟨1, h1⟩) ∧ (∃ i, U i ⟨1, h1⟩ < 0) ∧
    (∀ D : Finset V, (∀ v, v ∈ D ↔ ∃ i, l.get i = v ∧ U i ⟨1, h1⟩ ≤ 0) → ConnectedOn G D) ∧
    (∀ D : Finset V, (∀ v, v ∈ D ↔ ∃ i, l.get i = v ∧ 0 ≤ U i ⟨1, h1⟩) → ConnectedOn G D) := by
  have hinj : Function.Injective l.get := List.nodup_iff_injective_get.1 hl
  have hW : ∀ i j, listWeights G w l i j = listWeights G w l j i := fun i j => by unfold listWeights; rw [adjEntry_symm hG]
  have h0 : ∀ i j, 0 ≤ listWeights G w l i j := fun i j => by
    unfold listWeights; exact_mod_cast adjEntry_nonneg hw _ _
  have hL := linked_of_connected hw hc hl hn
  have hs := scaleOf_pos normalized hw hc hl hn h1
  rw [spectralMatrix_eq] at hU
  have hsec := hU.second hW h0 hL hs h1
  have hd : ∀ i, 0 < 1 / scaleOf normalized G w l i ^ 2 := fun i => one_div_pos.2 (pow_pos (hs i) 2)
  obtain ⟨p, hp⟩ := hsec.exists_pos hd
  obtain ⟨q, hq⟩ := hsec.exists_neg hd
  have hp' : 0 < U p ⟨1, h1⟩ := (mul_pos_iff_of_pos_left (hs p)).1 hp
  have hq' : U q ⟨1, h1⟩ < 0 := by
    by_contra hge
    exact absurd (mul_nonneg (hs q).le (not_lt.1 hge)) (not_le.2 hq)
  refine ⟨⟨p, hp'⟩, ⟨q, hq'⟩, ?_, ?_⟩
  · intro D hD
    refine connected_of_nodal hw (l := l) (fun v hv => ?_) ⟨l.get q, (hD _).2 ⟨q, rfl, hq'.le⟩⟩ ?_
    · obtain ⟨i, rfl, -⟩ := (hD v).1 hv
      exact List.get_mem _ _
    · intro S1 S2 hS hdis hn1 hn2
      refine hsec.nodal hW h0 hL hd (fun i => ?_) hdis hn1 hn2
      rw [hS, hD]
      constructor
      · rintro ⟨j, hj, hle⟩
        rw [hinj hj] at hle
        exact mul_nonpos_of_nonneg_of_nonpos (hs i).le hle
      · intro hle
        refine ⟨i, rfl, ?_⟩
        by_contra hgt
        exact absurd (mul_pos (hs i) (not_le.1 hgt)) (not_lt.2 hle)
  · intro D hD
    refine connected_of_nodal hw (l := l) (fun v hv => ?_) ⟨l.get p, (hD _).2 ⟨p, rfl, hp'.le⟩⟩ ?_
    · obtain ⟨i, rfl, -⟩ := (hD v).1 hv
      exact List.get_mem _ _
    · intro S1 S2 hS hdis hn1 hn2
      refine hsec.neg.nodal hW h0 hL hd (fun i => ?_) hdis hn1 hn2
      rw [hS, hD, Pi.neg_apply, neg_nonpos]
      constructor
      · rintro ⟨j, hj, hle⟩
        rw [hinj hj] at hle
        exact mul_nonneg (hs i).le hle
      · intro hle
        refine ⟨i, rfl, ?_⟩
        by_contra hgt
        exact absurd (mul_neg_of_pos_of_neg (hs i) (not_le.1 hgt)) (not_lt.2 hle)

/-! ### The flips of `spectral_recom` -/

/-- Plan `b` is obtained from plan `a` by merging the districts `p` and `q`, which are joined by an edge, and splitting their union again into two
nonempty districts with the same labels; `p` is connected. -/
structure SpectralSplit (G : Graph V) (p q : P) (a b : Assignment V P) : Prop where
  ne : p ≠ q
  joined : ∃ u v, G.Adj u v ∧ a.mapping.get? u = some p ∧ a.mapping.get? v = some q
  inside : ∀ v, a.mapping.get? v = some p ∨ a.mapping.get? v = some q → b.mapping.get? v = some p ∨ b.mapping.get? v = some q
  outside : ∀ v, a.mapping.get? v ≠ some p → a.mapping.get? v ≠ some q → b.mapping.get? v = a.mapping.get? v
  keys : b.parts.keys = a.parts.keys
  others : ∀ x, x ≠ p → x ≠ q → b.parts.get? x = a.parts.get? x
  low : ∃ s, b.parts.get? p = some s ∧ s.Nonempty ∧ ConnectedOn G s
  high : ∃ s, b.parts.get? q = some s ∧ s.Nonempty

theorem M.onRand_eq {α : Type} {m : M S α} {s s1 : EdgeWeights V × S} {r : Py α} (h : M.onRand m s = (r, s1)) :
    m s.2 = (r, s1.2) ∧ s1.1 = s.1 := by
  unfold M.onRand at h
  cases h
  exact ⟨rfl, rfl⟩

/-- the matrix of eigenvectors that a run of `spectral_cut` uses belongs to the weights after the run -/
theorem spectralCut_ok {R : Rand S} {eigh : Eigh} {H : Graph V} {labels : P × P} {rnd nrm : Bool} {w w' : EdgeWeights V × S} {f : Dict V P}
    (h : spectralCut R eigh H labels rnd nrm w = (.ok f, w')) :
    ∃ h1 : 1 < (iter H.nodes).length,
      f = clusters (iter H.nodes) h1 (eigh _ (spectralMatrix nrm H w'.1 (iter H.nodes))) labels := by
  unfold spectralCut at h
  obtain ⟨u, w1, -, g1⟩ := M.bind_eq_ok h
  obtain ⟨s, w2, h2, g2⟩ := M.bind_eq_ok g1
  cases h2
  split at g2
  · rename_i h1
    cases g2
    exact ⟨h1, rfl⟩
  · split at g2 <;> cases g2

theorem spectralFlips_ok {R : Rand S} (hR : R.Valid) {eigh : Eigh} {rnd nrm : Bool} {G : Graph V} {a : Assignment V P} {cuts : Finset (V × V)}
    {w w' : EdgeWeights V × S} {f : Dict V P} (h : spectralFlips R eigh rnd nrm G a cuts w = (.ok f, w')) :
    ∃ e ∈ cuts, ∃ pq s w1, endLabels a e = .ok pq ∧ mergedNodes a pq.1 pq.2 = .ok s ∧ w1.1 = w.1 ∧
      spectralCut R eigh (G.subgraph s) pq rnd nrm w1 = (.ok f, w') := by
  unfold spectralFlips at h
  obtain ⟨e, w1, h1, g1⟩ := M.bind_eq_ok h
  obtain ⟨pq, w2, h2, g2⟩ := M.bind_eq_ok g1
  obtain ⟨h2', rfl⟩ := M.lift_eq_ok h2
  obtain ⟨s, w3, h3, g3⟩ := M.bind_eq_ok g2
  obtain ⟨h3', rfl⟩ := M.lift_eq_ok h3
  obtain ⟨k1, k2⟩ := M.onRand_eq h1
  exact ⟨e, mem_iterE.1 (hR.choice_ok k1), pq, s, _, h2', h3', k2, g3⟩

theorem PosWeights.subgraph {G : Graph V} {w : EdgeWeights V} (h : PosWeights G w) (s : Finset V) : PosWeights (G.subgraph s) w :=
  fun e he => h e (Finset.mem_filter.1 he).1

/-- the merged districts of the ends of a cut edge -/
theorem merged_facts {G : Graph V} {a : Assignment V P} (ha : a.Coherent) (hcov : a.Covers G.nodes)
    (hc : ContiguousPlan G a) {e : V × V} (he : e ∈ cutsOf G a.mapping) {pq : P × P} (hpq : endLabels a e = .ok pq) {u : Finset V}
    (hu : mergedNodes a pq.1 pq.2 = .ok u) :
    pq.1 ≠ pq.2 ∧ (G.Adj e.1 e.2 ∧ a.mapping.get? e.1 = some pq.1 ∧ a.mapping.get? e.2 = some pq.2) ∧ u ⊆ G.nodes ∧ ConnectedOn G u ∧
      (G.subgraph u).nodes = u ∧ ∃ s t, a.parts.get? pq.1 = some s ∧ a.parts.get? pq.2 = some t ∧ u = s ∪ t := by
  obtain ⟨h1, h2⟩ := endLabels_ok hpq
  obtain ⟨h3, h4⟩ := mem_cutsOf.1 he
  have hne : pq.1 ≠ pq.2 := by
    intro h; apply h4; rw [h1, h2, h]
  obtain ⟨s, t, hs, ht, rfl⟩ := mergedNodes_ok hu
  have hms := ha.agree _ s hs
  have hmt := ha.agree _ t ht
  have hsub : s ∪ t ⊆ G.nodes := by
    intro v hv
    rw [← hcov v, Dict.mem_keys_iff]
    rw [Finset.mem_union, hms, hmt] at hv
    rcases hv with hv | hv <;> exact ⟨_, hv⟩
  exact ⟨hne, ⟨h3.2, h1, h2⟩, hsub, connectedOn_union (hc _ s hs) (hc _ t ht) ((hms _).2 h1) ((hmt _).2 h2) h3.2,
    (method_on_subgraph (G := G) hsub (A := ∅)).1, s, t, hs, ht, rfl⟩

/-- what is known about the flips of one run on a contiguous plan -/
theorem spectral_flips_facts {R : Rand S} (hR : R.Valid) {eigh : Eigh} (hE : GoodEigh V eigh) {rnd nrm : Bool} {G : Graph V} (hG : G.WF)
    {a : Assignment V P} (ha : a.Coherent) (hcov : a.Covers G.nodes) (hc : ContiguousPlan G a) {w w' : EdgeWeights V × S} {f : Dict V P}
    (h : spectralFlips R eigh rnd nrm G a (cutsOf G a.mapping) w = (.ok f, w')) (hpos : PosWeights G w'.1) :
    ∃ p q s t, p ≠ q ∧ (∃ u v, G.Adj u v ∧ a.mapping.get? u = some p ∧ a.mapping.get? v = some q) ∧ a.parts.get? p = some s ∧
      a.parts.get? q = some t ∧ f.WF ∧ (∀ v, v ∉ s ∪ t → f.get? v = none) ∧ (∀ v ∈ s ∪ t, f.get? v = some p ∨ f.get? v = some q) ∧
      (∀ D : Finset V, (∀ v, v ∈ D ↔ f.get? v = some p) → ConnectedOn G D) ∧ (∃ v, f.get? v = some q) ∧
      ∃ val : V → ℝ, (∀ v ∈ s ∪ t, f.get? v = some q ↔ 0 < val v) ∧
        (∀ D : Finset V, (∀ v, v ∈ D ↔ v ∈ s ∪ t ∧ 0 ≤ val v) → ConnectedOn G D) ∧
        (∀ v ∈ s ∪ t, ∃ h1 i, val v =
          eigh _ (spectralMatrix nrm (G.subgraph (s ∪ t)) w'.1 (iter (G.subgraph (s ∪ t)).nodes)) i ⟨1, h1⟩) := by
  obtain ⟨e, he, pq, u, w1, h1, h2, -, h4⟩ := spectralFlips_ok hR h
  obtain ⟨hne, hj, hsub, hconn, hn, s, t, hs, ht, rfl⟩ := merged_facts ha hcov hc he h1 h2
  obtain ⟨hlen, rfl⟩ := spectralCut_ok h4
  set H := G.subgraph (s ∪ t) with hH
  have hHw : H.WF := hG.subgraph _
  have hconnH : ConnectedOn H H.nodes := (connectedOn_subgraph (G := G) hsub).2 hconn
  have hw : PosWeights H w'.1 := hpos.subgraph _
  obtain ⟨vals, hU⟩ := hE nrm H w'.1 hHw hw
  have hl := nodup_iter H.nodes
  have hmem : ∀ v, v ∈ iter H.nodes ↔ v ∈ H.nodes := fun v => mem_iter
  obtain ⟨⟨i, hi⟩, -, hlow, hhigh⟩ := clusters_sides nrm hHw hw hconnH hl hmem hlen hU
  set U := eigh _ (spectralMatrix nrm H w'.1 (iter H.nodes)) with hUdef
  have hin : ∀ v, v ∈ s ∪ t ↔ ∃ x : Fin (iter H.nodes).length, (iter H.nodes).get x = v := by
    intro v
    rw [← List.mem_iff_get, hmem, hn]
  have conv : ∀ D : Finset V, D ⊆ s ∪ t → ConnectedOn H D → ConnectedOn G D := fun D hD hcD =>
    ((method_on_subgraph (G := G) hsub (A := D)).2 hD).1 hcD
  refine ⟨pq.1, pq.2, s, t, hne, ⟨_, _, hj⟩, hs, ht, clusters_wf hl hlen U pq, ?_, ?_, ?_, ?_, ?_⟩
  · intro v hv
    refine clusters_none hlen U pq fun hmv => hv ?_
    rw [hmem, hn] at hmv
    exact hmv
  · intro v hv
    obtain ⟨x, rfl⟩ := (hin v).1 hv
    rw [clusters_get hl]
    split <;> simp
  · intro D hD
    have hDs : D ⊆ s ∪ t := by
      intro v hv
      by_contra hnv
      have := (hD v).1 hv
      rw [clusters_none hlen U pq (fun hmv => hnv (by rw [hmem, hn] at hmv; exact hmv))] at this
      cases this
    refine conv D hDs (hlow D fun v => ?_)
    rw [hD]
    constructor
    · intro hv
      obtain ⟨x, rfl⟩ := (hin v).1 (hDs ((hD v).2 hv))
      refine ⟨x, rfl, ?_⟩
      rw [clusters_get hl] at hv
      by_contra hgt
      rw [if_pos (not_le.1 hgt)] at hv
      exact hne (Option.some.inj hv).symm
    · rintro ⟨x, rfl, hle⟩
      rw [clusters_get hl, if_neg (not_lt.2 hle)]
  · exact ⟨_, by rw [clusters_get hl, if_pos hi]⟩
  · classical
    refine ⟨fun v => if hv : ∃ x : Fin (iter H.nodes).length, (iter H.nodes).get x = v then U hv.choose ⟨1, hlen⟩ else 0, ?_, ?_,
      fun v hv => ⟨hlen, ((hin v).1 hv).choose, dif_pos ((hin v).1 hv)⟩⟩
    · intro v hv
      have hx := (hin v).1 hv
      beta_reduce
      rw [dif_pos hx]
      conv_lhs => rw [← hx.choose_spec, clusters_get hl]
      constructor
      · intro heq
        by_contra hgt
        rw [if_neg hgt] at heq
        exact hne (Option.some.inj heq)
      · intro hgt
        rw [if_pos hgt]
    · intro D hD
      have hDs : D ⊆ s ∪ t := fun v hv => ((hD v).1 hv).1
      have hinj : Function.Injective (iter H.nodes).get := List.nodup_iff_injective_get.1 hl
      refine conv D hDs (hhigh D fun v => ?_)
      rw [hD]
      constructor
      · rintro ⟨hv, hge⟩
        have hx := (hin v).1 hv
        beta_reduce at hge
        rw [dif_pos hx] at hge
        exact ⟨_, hx.choose_spec, hge⟩
      · rintro ⟨x, rfl, hge⟩
        have hx : ∃ y : Fin (iter H.nodes).length, (iter H.nodes).get y = (iter H.nodes).get x := ⟨x, rfl⟩
        refine ⟨(hin _).2 ⟨x, rfl⟩, ?_⟩
        beta_reduce
        rw [dif_pos hx, hinj hx.choose_spec]
        exact hge

/-- **C78** on assignments: whatever `spectral_recom` returns on a contiguous plan, with a correct `eigh` and positive weights, splits the union of
two districts joined by a cut edge into two nonempty districts with the same labels, one of which is connected. -/
theorem C78_flips {R : Rand S} (hR : R.Valid) {eigh : Eigh} (hE : GoodEigh V eigh) {rnd nrm : Bool} {G : Graph V} (hG : G.WF)
    {a b : Assignment V P} (ha : a.Coherent) (hcov : a.Covers G.nodes) (hc : ContiguousPlan G a) {w w' : EdgeWeights V × S} {f : Dict V P}
    (h : spectralFlips R eigh rnd nrm G a (cutsOf G a.mapping) w = (.ok f, w')) (hpos : PosWeights G w'.1) (hb : a.flip f = .ok b) :
    ∃ p q, SpectralSplit G p q a b := by
  obtain ⟨p, q, s, t, hne, hj, hs, ht, hf, hout, hin, hlow, ⟨v0, hv0⟩, -⟩ := spectral_flips_facts hR hE hG ha hcov hc h hpos
  -- apart from contiguity and population, this is a recombination in the complete graph
  have hfs := flip_ok ha hf hb
  have hms := ha.agree p s hs
  have hmt := ha.agree q t ht
  have hpart : ∀ x, x = p ∨ x = q → ∃ r, b.parts.get? x = some r ∧ ∀ v, v ∈ r ↔ f.get? v = some x := by
    intro x hx
    have hxa : x ∈ a.parts.keys := by
      rcases hx with rfl | rfl
      · exact Dict.mem_keys_iff.2 ⟨_, hs⟩
      · exact Dict.mem_keys_iff.2 ⟨_, ht⟩
    rw [← hfs.keys] at hxa
    obtain ⟨r, hr⟩ := Dict.mem_keys_iff.1 hxa
    refine ⟨r, hr, fun v => ?_⟩
    rw [hfs.coherent.agree x r hr, hfs.get?]
    by_cases hv : v ∈ s ∪ t
    · rcases hin v hv with h | h <;> rw [h] <;> simp
    · rw [hout v hv]
      simp only [Option.none_or, reduceCtorEq, iff_false]
      rw [Finset.mem_union, hms, hmt] at hv
      rcases hx with rfl | rfl <;> tauto
  refine ⟨p, q, hne, hj, ?_, ?_, hfs.keys, ?_, ?_, ?_⟩
  · intro v hv
    have hv' : v ∈ s ∪ t := by rw [Finset.mem_union, hms, hmt]; exact hv
    rw [hfs.get?]
    rcases hin v hv' with h | h <;> rw [h] <;> simp
  · intro v h1 h2
    rw [hfs.get?, hout v]
    · rfl
    · rw [Finset.mem_union, hms, hmt]; tauto
  · intro x hx1 hx2
    rcases hbx : b.parts.get? x with _ | r
    · rcases hax : a.parts.get? x with _ | r'
      · rfl
      · exfalso
        have : x ∈ b.parts.keys := by rw [hfs.keys]; exact Dict.mem_keys_iff.2 ⟨_, hax⟩
        obtain ⟨z, hz⟩ := Dict.mem_keys_iff.1 this
        rw [hbx] at hz; cases hz
    · have : x ∈ a.parts.keys := by rw [← hfs.keys]; exact Dict.mem_keys_iff.2 ⟨_, hbx⟩
      obtain ⟨r', hr'⟩ := Dict.mem_keys_iff.1 this
      rw [hr']
      congr 1
      ext v
      rw [hfs.coherent.agree x r hbx, ha.agree x r' hr', hfs.get?]
      by_cases hv : v ∈ s ∪ t
      · have h1 : a.mapping.get? v ≠ some x := by
          rw [Finset.mem_union, hms, hmt] at hv
          rcases hv with hv | hv <;> rw [hv] <;> simp <;> tauto
        rcases hin v hv with h | h <;> rw [h] <;> simp <;> tauto
      · rw [hout v hv]; rfl
  · obtain ⟨r, hr, hmr⟩ := hpart p (.inl rfl)
    have := hlow r hmr
    exact ⟨r, hr, this.1, this⟩
  · obtain ⟨r, hr, hmr⟩ := hpart q (.inr rfl)
    exact ⟨r, hr, v0, (hmr v0).2 hv0⟩

/-- **C78** With no zero among the entries of the eigenvector, the new plan is contiguous. -/
theorem C78_contiguous {R : Rand S} (hR : R.Valid) {eigh : Eigh} (hE : GoodEigh V eigh) {rnd nrm : Bool} {G : Graph V} (hG : G.WF)
    {a b : Assignment V P} (ha : a.Coherent) (hcov : a.Covers G.nodes) (hc : ContiguousPlan G a) {w w' : EdgeWeights V × S} {f : Dict V P}
    (h : spectralFlips R eigh rnd nrm G a (cutsOf G a.mapping) w = (.ok f, w')) (hpos : PosWeights G w'.1) (hb : a.flip f = .ok b)
    (hz : ∀ p q s t, a.parts.get? p = some s → a.parts.get? q = some t → ∀ h1 i,
      eigh _ (spectralMatrix nrm (G.subgraph (s ∪ t)) w'.1 (iter (G.subgraph (s ∪ t)).nodes)) i ⟨1, h1⟩ ≠ 0) :
    ContiguousPlan G b := by
  obtain ⟨p, q, s, t, hne, hj, hs, ht, hf, hout, hin, hlow, -, val, hv1, hv2, hv3⟩ := spectral_flips_facts hR hE hG ha hcov hc h hpos
  have hfs := flip_ok ha hf hb
  have hms := ha.agree p s hs
  have hmt := ha.agree q t ht
  intro x r hr
  have hmr := hfs.coherent.agree x r hr
  have hmem : x = p ∨ x = q → ∀ v, v ∈ r ↔ f.get? v = some x := by
    intro hx v
    rw [hmr, hfs.get?]
    by_cases hv : v ∈ s ∪ t
    · rcases hin v hv with h | h <;> rw [h] <;> simp
    · rw [hout v hv]
      simp only [Option.none_or, reduceCtorEq, iff_false]
      rw [Finset.mem_union, hms, hmt] at hv
      rcases hx with rfl | rfl <;> tauto
  by_cases hxp : x = p
  · subst hxp
    exact hlow r (hmem (.inl rfl))
  by_cases hxq : x = q
  · subst hxq
    refine hv2 r fun v => ?_
    rw [hmem (.inr rfl)]
    constructor
    · intro hfv
      have hv : v ∈ s ∪ t := by
        by_contra hnv
        rw [hout v hnv] at hfv; cases hfv
      exact ⟨hv, ((hv1 v hv).1 hfv).le⟩
    · rintro ⟨hv, hge⟩
      refine (hv1 v hv).2 (lt_of_le_of_ne hge fun h0 => ?_)
      obtain ⟨h1, i, hi⟩ := hv3 v hv
      exact hz p _ s t hs ht h1 i (hi ▸ h0.symm)
  · have hxa : x ∈ a.parts.keys := by rw [← hfs.keys]; exact Dict.mem_keys_iff.2 ⟨_, hr⟩
    obtain ⟨r', hr'⟩ := Dict.mem_keys_iff.1 hxa
    have : r = r' := by
      ext v
      rw [hmr, ha.agree x r' hr', hfs.get?]
      by_cases hv : v ∈ s ∪ t
      · have h1 : a.mapping.get? v ≠ some x := by
          rw [Finset.mem_union, hms, hmt] at hv
          rcases hv with hv | hv <;> rw [hv] <;> simp <;> tauto
        rcases hin v hv with h | h <;> rw [h] <;> simp <;> tauto
      · rw [hout v hv]; rfl
    rw [this]
    exact hc x r' hr'

/-! ### Outcomes and the weights of the edges -/

/-- what drawing the weights does: it succeeds, gives every listed edge a weight in `[0, 1)` and changes no other -/
theorem spectralWeights_ok {R : Rand S} (hR : R.Valid) (l : List (V × V)) (w : EdgeWeights V × S) :
    ∃ w', spectralWeights R l w = (.ok (), w') ∧ (∀ e ∈ l, ∃ x s s', w'.1 e = some x ∧ R.random s = (.ok x, s')) ∧
      ∀ e, e ∉ l → w'.1 e = w.1 e := by
  induction l generalizing w with
  | nil => exact ⟨w, rfl, by simp, by simp⟩
  | cons e l ih =>
    obtain ⟨x, s', hx, -, -⟩ := hR.random_ok w.2
    obtain ⟨w', h1, h2, h3⟩ := ih (Function.update w.1 e (some x), s')
    refine ⟨w', ?_, ?_, ?_⟩
    · have e1 : (M.onRand R.random : M (EdgeWeights V × S) ℚ) w = (.ok x, (w.1, s')) := by
        unfold M.onRand; rw [hx]
      unfold spectralWeights
      rw [M.bind_ok e1]
      exact h1
    · intro e' he'
      by_cases hl : e' ∈ l
      · exact h2 e' hl
      · rcases List.mem_cons.1 he' with rfl | he'
        · refine ⟨x, w.2, s', ?_, hx⟩
          rw [h3 _ hl]; simp
        · exact absurd he' hl
    · intro e' he'
      rw [List.mem_cons, not_or] at he'
      rw [h3 e' he'.2]
      exact Function.update_of_ne he'.1 _ _

/-- **C78** `spectral_recom` on a contiguous plan does not fail if there is a cut edge, and raises `IndexError` if there is none. -/
theorem C78_outcomes {R : Rand S} (hR : R.Valid) (eigh : Eigh) (rnd nrm : Bool) {G : Graph V} (hG : G.WF) {a : Assignment V P}
    (ha : a.Coherent) (hcov : a.Covers G.nodes) (hc : ContiguousPlan G a) (w : EdgeWeights V × S) :
    ((cutsOf G a.mapping).Nonempty → ∃ f w', spectralFlips R eigh rnd nrm G a (cutsOf G a.mapping) w = (.ok f, w') ∧
      ∃ b, a.flip f = .ok b) ∧
    (cutsOf G a.mapping = ∅ → ∃ w', spectralFlips R eigh rnd nrm G a (cutsOf G a.mapping) w = (.error .indexError, w')) := by
  constructor
  · rintro ⟨e0, he0⟩
    have hne : iterE (cutsOf G a.mapping) ≠ [] := fun h => by
      have := mem_iterE.2 he0
      rw [h] at this
      cases this
    obtain ⟨e, he, s1, h1⟩ := hR.choice_mem (iterE (cutsOf G a.mapping)) w.2 hne
    rw [mem_iterE] at he
    obtain ⟨h3, h4⟩ := mem_cutsOf.1 he
    have adj : G.Adj e.1 e.2 := h3.2
    have lab : ∀ v, (∃ p, a.mapping.get? v = some p) → ∃ p s, a.mapping.get? v = some p ∧ a.parts.get? p = some s ∧ v ∈ s := by
      rintro v ⟨p, hp⟩
      obtain ⟨s, hs⟩ := Dict.mem_keys_iff.1 (ha.complete v p hp)
      exact ⟨p, s, hp, hs, (ha.agree p s hs v).2 hp⟩
    obtain ⟨p, s, hp, hs, hps⟩ := lab e.1 (Dict.mem_keys_iff.1 ((hcov _).2 (hG.mem_of_adj adj).1))
    obtain ⟨q, t, hq, ht, hqt⟩ := lab e.2 (Dict.mem_keys_iff.1 ((hcov _).2 (hG.mem_of_adj adj).2))
    have hpq : endLabels a e = .ok (p, q) := by
      unfold endLabels
      rw [Dict.get_eq_ok_iff.2 hp, Dict.get_eq_ok_iff.2 hq]
      rfl
    have hu : mergedNodes a p q = .ok (s ∪ t) := by
      unfold mergedNodes
      rw [Dict.get_eq_ok_iff.2 hs, Dict.get_eq_ok_iff.2 ht]
      rfl
    obtain ⟨hne', -, -, -, hn, -⟩ := merged_facts ha hcov hc he hpq hu
    have hlen : 1 < (iter (G.subgraph (s ∪ t)).nodes).length := by
      rw [length_iter, hn, Finset.one_lt_card]
      refine ⟨e.1, Finset.mem_union_left _ hps, e.2, Finset.mem_union_right _ hqt, fun h => h4 (by rw [h])⟩
    obtain ⟨w1, hw1⟩ : ∃ w1, (if rnd then spectralWeights R (iterE (G.subgraph (s ∪ t)).edges) else pure () :
        M (EdgeWeights V × S) Unit) (w.1, s1) = (.ok (), w1) := by
      cases rnd
      · exact ⟨_, rfl⟩
      · obtain ⟨w1, hw1, -⟩ := spectralWeights_ok hR (iterE (G.subgraph (s ∪ t)).edges) (w.1, s1)
        exact ⟨w1, hw1⟩
    have e1 : (M.onRand (R.choice (iterE (cutsOf G a.mapping))) : M (EdgeWeights V × S) (V × V)) w = (.ok e, (w.1, s1)) := by
      unfold M.onRand; rw [h1]
    refine ⟨clusters _ hlen (eigh _ (spectralMatrix nrm (G.subgraph (s ∪ t)) w1.1 _)) (p, q), w1, ?_, ?_⟩
    · unfold spectralFlips
      rw [M.bind_ok e1, M.bind_ok (a := (p, q)) (by unfold M.lift; rw [hpq]), M.bind_ok (a := s ∪ t) (by unfold M.lift; rw [hu])]
      unfold spectralCut
      rw [M.bind_ok hw1, M.bind_ok (m := M.read) (a := w1) (s' := w1) rfl, dif_pos hlen]
      rfl
    · have hl := nodup_iter (G.subgraph (s ∪ t)).nodes
      have hwf := clusters_wf hl hlen (eigh _ (spectralMatrix nrm (G.subgraph (s ∪ t)) w1.1 _)) (p, q)
      have hms := ha.agree p s hs
      have hmt := ha.agree q t ht
      rcases hb : a.flip (clusters _ hlen (eigh _ (spectralMatrix nrm (G.subgraph (s ∪ t)) w1.1 _)) (p, q)) with er | b
      · exfalso
        rcases (flip_error ha hwf hb).2 with ⟨v, hv, hv'⟩ | ⟨x, hx, hx'⟩
        · by_cases hin : v ∈ iter (G.subgraph (s ∪ t)).nodes
          · rw [mem_iter, hn, Finset.mem_union, hms, hmt] at hin
            rcases hin with h | h <;> exact hv' (Dict.mem_keys_iff.2 ⟨_, h⟩)
          · exact absurd hv (Dict.get?_eq_none_iff.1 (clusters_none hlen _ _ hin))
        · obtain ⟨v, hv⟩ := (Dict.mem_values_iff hwf).1 hx
          by_cases hin : v ∈ iter (G.subgraph (s ∪ t)).nodes
          · obtain ⟨i, rfl⟩ := List.mem_iff_get.1 hin
            rw [clusters_get hl] at hv
            have : x = p ∨ x = q := by
              have := (Option.some.inj hv).symm
              split at this
              · exact .inr this
              · exact .inl this
            rcases this with rfl | rfl
            · exact hx' (Dict.mem_keys_iff.2 ⟨_, hs⟩)
            · exact hx' (Dict.mem_keys_iff.2 ⟨_, ht⟩)
          · rw [clusters_none hlen _ _ hin] at hv; cases hv
      · exact ⟨b, rfl⟩
  · intro h0
    obtain ⟨s', h1⟩ := hR.choice_nil (α := V × V) w.2
    have hnil : iterE (cutsOf G a.mapping) = [] := by rw [h0]; rfl
    refine ⟨(w.1, s'), ?_⟩
    unfold spectralFlips
    rw [hnil]
    have e1 : (M.onRand (R.choice ([] : List (V × V))) : M (EdgeWeights V × S) (V × V)) w = (.error .indexError, (w.1, s')) := by
      unfold M.onRand; rw [h1]
    show M.bind _ _ w = _
    unfold M.bind
    rw [e1]

/-- the merged districts and the weights before and after a run -/
theorem spectral_weights {R : Rand S} (hR : R.Valid) {eigh : Eigh} {rnd nrm : Bool} {G : Graph V} {a : Assignment V P}
    {cuts : Finset (V × V)} {w w' : EdgeWeights V × S} {f : Dict V P} (h : spectralFlips R eigh rnd nrm G a cuts w = (.ok f, w')) :
    ∃ e ∈ cuts, ∃ pq s, endLabels a e = .ok pq ∧ mergedNodes a pq.1 pq.2 = .ok s ∧ (rnd = false → w'.1 = w.1) ∧
      (rnd = true → (∀ e ∈ G.edges, e.1 ∈ s → e.2 ∈ s → ∃ x t t', w'.1 e = some x ∧ R.random t = (.ok x, t')) ∧
        ∀ e, ¬ (e ∈ G.edges ∧ e.1 ∈ s ∧ e.2 ∈ s) → w'.1 e = w.1 e) := by
  obtain ⟨e, he, pq, s, w1, h1, h2, h3, h4⟩ := spectralFlips_ok hR h
  refine ⟨e, he, pq, s, h1, h2, ?_, ?_⟩
  · rintro rfl
    unfold spectralCut at h4
    obtain ⟨u, w2, k1, g1⟩ := M.bind_eq_ok h4
    cases k1
    obtain ⟨x, w3, k2, g2⟩ := M.bind_eq_ok g1
    cases k2
    split at g2
    · cases g2; exact h3
    · split at g2 <;> cases g2
  · rintro rfl
    unfold spectralCut at h4
    obtain ⟨u, w2, k1, g1⟩ := M.bind_eq_ok h4
    obtain ⟨x, w3, k2, g2⟩ := M.bind_eq_ok g1
    cases k2
    obtain ⟨w2', l1, l2, l3⟩ := spectralWeights_ok hR (iterE (G.subgraph s).edges) w1
    have hw2 : w2 = w2' := by
      have k1' : spectralWeights R (iterE (G.subgraph s).edges) w1 = (.ok u, w2) := k1
      rw [l1] at k1'
      exact (Prod.mk.inj k1').2.symm
    subst hw2
    have hww : w' = w2 := by
      split at g2
      · cases g2; rfl
      · split at g2 <;> cases g2
    subst hww
    refine ⟨fun e he h5 h6 => l2 e (mem_iterE.2 (Finset.mem_filter.2 ⟨he, h5, h6⟩)), fun e he => ?_⟩
    rw [l3 e (fun hm => he (by
      obtain ⟨m1, m2, m3⟩ := Finset.mem_filter.1 (mem_iterE.1 hm)
      exact ⟨m1, m2, m3⟩)), h3]

/-- **C79** Without random weights, `spectral_recom` leaves the attributes of the graph alone. -/
theorem C79_unchanged_partial {R : Rand S} (hR : R.Valid) {eigh : Eigh} {nrm : Bool} {G : Graph V} {a : Assignment V P}
    {cuts : Finset (V × V)} {w w' : EdgeWeights V × S} {f : Dict V P} (h : spectralFlips R eigh false nrm G a cuts w = (.ok f, w')) :
    w'.1 = w.1 := by
  obtain ⟨_, -, _, _, -, -, h1, -⟩ := spectral_weights hR h
  exact h1 rfl

/-- **C79** With random weights, it overwrites the attribute `weight` of every edge inside the two merged districts by a number in `[0, 1)`, and leaves the
other edges alone. -/
theorem C79_random_partial {R : Rand S} (hR : R.Valid) {eigh : Eigh} {nrm : Bool} {G : Graph V} {a : Assignment V P}
    {cuts : Finset (V × V)} {w w' : EdgeWeights V × S} {f : Dict V P} (h : spectralFlips R eigh true nrm G a cuts w = (.ok f, w')) :
    ∃ e ∈ cuts, ∃ pq s, endLabels a e = .ok pq ∧ mergedNodes a pq.1 pq.2 = .ok s ∧
      (∀ e ∈ G.edges, e.1 ∈ s → e.2 ∈ s → ∃ x, w'.1 e = some x ∧ 0 ≤ x ∧ x < 1) ∧
      ∀ e, ¬ (e ∈ G.edges ∧ e.1 ∈ s ∧ e.2 ∈ s) → w'.1 e = w.1 e := by
  obtain ⟨e, he, pq, s, h1, h2, -, h4⟩ := spectral_weights hR h
  refine ⟨e, he, pq, s, h1, h2, fun e he h5 h6 => ?_, (h4 rfl).2⟩
  obtain ⟨x, t, t', hx, hr⟩ := (h4 rfl).1 e he h5 h6
  obtain ⟨y, t2, hy, h7, h8⟩ := hR.random_ok t
  rw [hr] at hy
  cases hy
  exact ⟨x, hx, h7, h8⟩

/-- positive weights stay positive if the random numbers are positive -/
theorem posWeights_after {R : Rand S} (hR : R.Valid) (h0 : ∀ t x t', R.random t = (.ok x, t') → 0 < x) {eigh : Eigh} {rnd nrm : Bool}
    {G : Graph V} {a : Assignment V P} {cuts : Finset (V × V)} {w w' : EdgeWeights V × S} {f : Dict V P}
    (h : spectralFlips R eigh rnd nrm G a cuts w = (.ok f, w')) (hw : PosWeights G w.1) : PosWeights G w'.1 := by
  obtain ⟨e, he, pq, s, h1, h2, h3, h4⟩ := spectral_weights hR h
  cases rnd
  · rw [h3 rfl]; exact hw
  · intro e he x hx
    by_cases hs : e.1 ∈ s ∧ e.2 ∈ s
    · obtain ⟨y, t, t', hy, hr⟩ := (h4 rfl).1 e he hs.1 hs.2
      rw [hy] at hx; cases hx
      exact h0 _ _ _ hr
    · rw [(h4 rfl).2 e (fun hh => hs hh.2)] at hx
      exact hw e he x hx

/-- the number of spanning trees reported for a district that consists of one edge is the weight of the edge -/
theorem trees_of_edge {u v : V} (huv : u ≠ v) {G : Graph V} (hG : G.WF) (he : (u, v) ∈ G.edges) (w : EdgeWeights V)
    (h0 : 0 ≤ (w (u, v)).getD 1) (h1 : (w (u, v)).getD 1 ≤ 1) : treesInDistrict G w [u, v] = .ok ((w (u, v)).getD 1) := by
  have hadj : adjEntry G w v u = (w (u, v)).getD 1 := by
    rw [adjEntry_symm hG]
    unfold adjEntry
    rw [if_pos he]
  have hent : laplacianMatrix G w [u, v] 1 0 = -adjEntry G w v u := by
    unfold laplacianMatrix
    rw [if_neg (show ¬ ((1 : Fin 2) = 0) by decide), zero_sub]
    rfl
  show expSlogdet (Matrix.det (n := Fin 1) _) = _
  rw [Matrix.det_fin_one]
  have : (laplacianMatrix G w [u, v]).submatrix (Fin.succAbove (0 : Fin 2)) (Fin.succAbove 1) 0 0 = -adjEntry G w v u := hent
  unfold expSlogdet
  refine Eq.trans (congrArg (fun d : ℚ => (if 2 ^ 1024 ≤ |d| then Except.error PyErr.overflowError else Except.ok |d| : Py ℚ)) this) ?_
  simp only [hadj, abs_neg, abs_of_nonneg h0]
  rw [if_neg]
  exact not_le.2 (lt_of_le_of_lt h1 (one_lt_pow₀ (by norm_num) (by norm_num)))

/-- **C79** A run with random weights changes the reported number of spanning trees of any district that consists of a single edge inside the merged
districts: it was 1 (no weights), afterwards it is less than 1. -/
theorem C79_count_violation {R : Rand S} (hR : R.Valid) {eigh : Eigh} {nrm : Bool} {G : Graph V} (hG : G.WF) {a : Assignment V P}
    {cuts : Finset (V × V)} {w w' : EdgeWeights V × S} {f : Dict V P} (hw : ∀ e, w.1 e = none)
    (h : spectralFlips R eigh true nrm G a cuts w = (.ok f, w')) :
    ∃ e ∈ cuts, ∃ pq s, endLabels a e = .ok pq ∧ mergedNodes a pq.1 pq.2 = .ok s ∧
      ∀ u v, u ≠ v → (u, v) ∈ G.edges → u ∈ s → v ∈ s →
        treesInDistrict G w.1 [u, v] = .ok 1 ∧ ∃ x < 1, treesInDistrict G w'.1 [u, v] = .ok x := by
  obtain ⟨e, he, pq, s, h1, h2, h3, -⟩ := C79_random_partial hR h
  refine ⟨e, he, pq, s, h1, h2, fun u v huv huve hu hv => ⟨?_, ?_⟩⟩
  · have := trees_of_edge huv hG huve w.1 (by rw [hw]; simp) (by rw [hw]; simp)
    rw [hw] at this
    exact this
  · obtain ⟨x, hx, h4, h5⟩ := h3 (u, v) huve hu hv
    refine ⟨x, h5, ?_⟩
    have := trees_of_edge huv hG huve w'.1 (by rw [hx]; exact h4) (by rw [hx]; exact h5.le)
    rw [hx] at this
    exact this

/-! ### A correct `eigh` exists -/

theorem scaledLap_symm {n : ℕ} {W : Fin n → Fin n → ℝ} (hW : ∀ i j, W i j = W j i) (s : Fin n → ℝ) (i j : Fin n) :
    scaledLap W s i j = scaledLap W s j i := by
  unfold scaledLap
  by_cases h : i = j
  · rw [h]
  · rw [if_neg h, if_neg (Ne.symm h), hW i j]; ring

theorem spectralMatrix_symm (nrm : Bool) {G : Graph V} (hG : G.WF) (w : EdgeWeights V) (l : List V) (i j : Fin l.length) :
    spectralMatrix nrm G w l i j = spectralMatrix nrm G w l j i := by
  rw [spectralMatrix_eq]
  exact scaledLap_symm (fun i j => by unfold listWeights; rw [adjEntry_symm hG]) _ i j

open Classical in
/-- an `eigh` that returns some decomposition -/
noncomputable def anyEigh : Eigh := fun _ A => if h : ∃ U vals, IsEigh A U vals then h.choose else 1

theorem anyEigh_ok {n : ℕ} {A : Matrix (Fin n) (Fin n) ℝ} (hA : ∀ i j, A i j = A j i) : ∃ vals, IsEigh A (anyEigh n A) vals := by
  have h := exists_isEigh A hA
  unfold anyEigh
  rw [dif_pos h]
  exact h.choose_spec

/-- the hypothesis `GoodEigh` is satisfied by some function -/
theorem goodEigh_exists (V : Type) [LinearOrder V] : GoodEigh V anyEigh := fun nrm _ w hG _ => anyEigh_ok (spectralMatrix_symm nrm hG w _)

/-! ### Districts that fall apart -/

/-- a star with centre 0 and three leaves -/
def starGraph : Graph (Fin 4) := ⟨{0, 1, 2, 3}, {(0, 1), (0, 2), (0, 3)}⟩

/-- its normalized Laplacian -/
noncomputable def starMatrix : Matrix (Fin 4) (Fin 4) ℝ :=
  !![1, -(1 / √3), -(1 / √3), -(1 / √3); -(1 / √3), 1, 0, 0; -(1 / √3), 0, 1, 0; -(1 / √3), 0, 0, 1]

/-- orthonormal eigenvectors for the eigenvalues 0, 1, 1, 2 -/
noncomputable def starVectors : Matrix (Fin 4) (Fin 4) ℝ :=
  !![√3 / √6, 0, 0, √3 / √6; 1 / √6, 1 / √6, 1 / √2, -(1 / √6); 1 / √6, 1 / √6, -(1 / √2), -(1 / √6); 1 / √6, -(2 / √6), 0, -(1 / √6)]

theorem starMatrix_eq : spectralMatrix true starGraph (fun _ => none) [0, 1, 2, 3] = starMatrix := by
  have hL : laplacianMatrix starGraph (fun _ => none) [0, 1, 2, 3] = !![3, -1, -1, -1; -1, 1, 0, 0; -1, 0, 1, 0; -1, 0, 0, 1] := by
    decide +kernel
  have hD : ∀ i : Fin 4, ∑ k : Fin 4, adjEntry starGraph (fun _ => none) (([0, 1, 2, 3] : List (Fin 4)).get i) (([0, 1, 2, 3] : List (Fin 4)).get k) =
      if i = 0 then 3 else 1 := by decide +kernel
  have hd0 : invSqrtDegree starGraph (fun _ => none) [0, 1, 2, 3] (0 : Fin 4) = 1 / √3 := by
    unfold invSqrtDegree
    have := hD 0
    simp only [if_true] at this
    rw [show (∑ k : Fin ([0, 1, 2, 3] : List (Fin 4)).length, adjEntry starGraph (fun _ => none) (([0, 1, 2, 3] : List (Fin 4)).get (0 : Fin 4))
      (([0, 1, 2, 3] : List (Fin 4)).get k)) = 3 from this, if_neg (by norm_num)]
    norm_num
  have hd1 : ∀ i : Fin 4, i ≠ 0 → invSqrtDegree starGraph (fun _ => none) [0, 1, 2, 3] i = 1 := by
    intro i hi
    unfold invSqrtDegree
    have := hD i
    rw [if_neg hi] at this
    rw [show (∑ k : Fin ([0, 1, 2, 3] : List (Fin 4)).length, adjEntry starGraph (fun _ => none) (([0, 1, 2, 3] : List (Fin 4)).get i)
      (([0, 1, 2, 3] : List (Fin 4)).get k)) = 1 from this, if_neg (by norm_num)]
    norm_num
  have hr : (√3 : ℝ) * √3 = 3 := Real.mul_self_sqrt (by norm_num)
  have hr0 : (√3 : ℝ) ≠ 0 := fun h => by rw [h] at hr; norm_num at hr
  have e : ∀ i j : Fin 4, spectralMatrix true starGraph (fun _ => none) [0, 1, 2, 3] i j =
      invSqrtDegree starGraph (fun _ => none) [0, 1, 2, 3] i * (((laplacianMatrix starGraph (fun _ => none) [0, 1, 2, 3] i j : ℚ) : ℝ) *
        invSqrtDegree starGraph (fun _ => none) [0, 1, 2, 3] j) := fun i j => rfl
  have h3 : (1 / √3 : ℝ) * (3 * (1 / √3)) = 1 := by field_simp; linarith
  refine Matrix.ext fun (i : Fin 4) (j : Fin 4) => ?_
  rw [e, hL]
  fin_cases i <;> fin_cases j <;>
    simp [hd0, hd1, starMatrix]
  field_simp
  linarith

theorem star_isEigh : IsEigh starMatrix starVectors ![0, 1, 1, 2] := by
  have h3 : (√3 : ℝ) * √3 = 3 := Real.mul_self_sqrt (by norm_num)
  have h30 : (√3 : ℝ) ≠ 0 := fun h => by rw [h] at h3; norm_num at h3
  have h6 : (√6 : ℝ) * √6 = 6 := Real.mul_self_sqrt (by norm_num)
  have h60 : (√6 : ℝ) ≠ 0 := fun h => by rw [h] at h6; norm_num at h6
  have h2 : (√2 : ℝ) * √2 = 2 := Real.mul_self_sqrt (by norm_num)
  have h20 : (√2 : ℝ) ≠ 0 := fun h => by rw [h] at h2; norm_num at h2
  refine ⟨?_, ?_, ?_⟩
  · intro i j hij
    fin_cases i <;> fin_cases j <;> simp at hij ⊢ 
  · refine Matrix.ext fun (i : Fin 4) (j : Fin 4) => ?_
    rw [Matrix.mul_diagonal, Matrix.mul_apply, Fin.sum_univ_four]
    unfold starMatrix starVectors
    generalize (√3 : ℝ) = r at *
    generalize (√6 : ℝ) = s at *
    generalize (√2 : ℝ) = t at *
    fin_cases i <;> fin_cases j <;> simp <;> field_simp <;> linarith
  · refine Matrix.ext fun (i : Fin 4) (j : Fin 4) => ?_
    rw [Matrix.mul_apply, Fin.sum_univ_four]
    simp only [Matrix.transpose_apply]
    unfold starVectors
    generalize (√3 : ℝ) = r at *
    generalize (√6 : ℝ) = s at *
    generalize (√2 : ℝ) = t at *
    fin_cases i <;> fin_cases j <;> simp <;> field_simp <;> linarith

open Classical in
/-- a correct `eigh` that chooses these eigenvectors of the star; the eigenvalue 1 has many bases of eigenvectors -/
noncomputable def starEigh : Eigh := fun n A =>
  match n, A with
  | 4, A => if A = starMatrix then starVectors else anyEigh 4 A
  | n, A => anyEigh n A

theorem starEigh_star : starEigh 4 starMatrix = starVectors := by
  unfold starEigh
  simp only [if_true]

theorem starEigh_good (V : Type) [LinearOrder V] : GoodEigh V starEigh := by
  have gen : ∀ (n : ℕ) (A : Matrix (Fin n) (Fin n) ℝ), (∀ i j, A i j = A j i) → ∃ vals, IsEigh A (starEigh n A) vals := by
    intro n A hA
    unfold starEigh
    split
    · split
      · rename_i h
        rw [h]
        exact ⟨_, star_isEigh⟩
      · exact anyEigh_ok hA
    · exact anyEigh_ok hA
  exact fun nrm G w hG _ => gen _ _ (spectralMatrix_symm nrm hG w _)

/-- the plan with the leaf 1 as one district and the rest as the other -/
def starPlan : Assignment (Fin 4) (Fin 2) := ⟨⟨[(0, {0, 2, 3}), (1, {1})]⟩, ⟨[(0, 0), (1, 1), (2, 0), (3, 0)]⟩⟩

theorem starGraph_wf : starGraph.WF := ⟨by decide, by decide, by decide⟩

theorem starPlan_coherent : starPlan.Coherent := ⟨by unfold Dict.WF; decide, by unfold Dict.WF; decide, by decide, by decide⟩

theorem starPlan_covers : starPlan.Covers starGraph.nodes := by
  unfold Assignment.Covers; decide

theorem starPlan_contiguous : ContiguousPlan starGraph starPlan := by
  intro p s hs
  have h : ∀ s : Finset (Fin 4), nxIsConnected (starGraph.subgraph s) = .ok true → ConnectedOn starGraph s := by
    intro s hs
    rw [nxIsConnected_true (starGraph_wf.subgraph s)] at hs
    exact (connectedOn_subgraph (Finset.subset_univ s)).1 hs
  fin_cases p <;> cases hs <;> exact h _ (by decide +kernel)

theorem star_cuts : cutsOf starGraph starPlan.mapping = {(0, 1)} := by decide +kernel

/-- **C78 (not contiguous)** On the star with the leaf 1 as one district and the rest as the other, a correct `eigh` may return the eigenvector
(0, 1, 1, -2) of the normalized Laplacian (up to scaling); `spectral_recom` with its default arguments then returns the plan {0, 3} | {1, 2}, which is
not contiguous. -/
theorem C78_violation (R : Rand S) (hR : R.Valid) (w : EdgeWeights (Fin 4) × S) (hw : w.1 = fun _ => none) :
    ∃ f w' b, spectralFlips R starEigh false true starGraph starPlan (cutsOf starGraph starPlan.mapping) w = (.ok f, w') ∧
      starPlan.flip f = .ok b ∧ b.parts.get? 0 = some {0, 3} ∧ b.parts.get? 1 = some {1, 2} ∧ ¬ ContiguousPlan starGraph b := by
  obtain ⟨f, w', h1, b, hb⟩ := (C78_outcomes hR starEigh false true starGraph_wf starPlan_coherent starPlan_covers starPlan_contiguous w).1
    (by rw [star_cuts]; exact Finset.singleton_nonempty _)
  have hw' : w'.1 = fun _ => none := (C79_unchanged_partial hR h1).trans hw
  obtain ⟨e, he, pq, s, w1, h2, h3, -, h5⟩ := spectralFlips_ok hR h1
  rw [star_cuts, Finset.mem_singleton] at he
  subst he
  have hpq : pq = (0, 1) := by
    have : endLabels starPlan ((0, 1) : Fin 4 × Fin 4) = .ok (0, 1) := by decide
    rw [this] at h2
    exact (Except.ok.inj h2).symm
  subst hpq
  have hs : s = {0, 1, 2, 3} := by
    have : mergedNodes starPlan (0, 1).1 (0, 1).2 = .ok ({0, 1, 2, 3} : Finset (Fin 4)) := congrArg Except.ok (by decide)
    rw [this] at h3
    exact (Except.ok.inj h3).symm
  subst hs
  have hH : starGraph.subgraph {0, 1, 2, 3} = starGraph := by
    unfold Graph.subgraph
    congr 1
  rw [hH] at h5
  obtain ⟨hlen, hf⟩ := spectralCut_ok h5
  rw [hw'] at hf
  have gen : ∀ (l : List (Fin 4)) (hl : l = [0, 1, 2, 3]) (hlen : 1 < l.length),
      clusters l hlen (starEigh _ (spectralMatrix true starGraph (fun _ => none) l)) ((0, 1) : Fin 2 × Fin 2) =
        ⟨[(0, 0), (1, 1), (2, 1), (3, 0)]⟩ := by
    rintro l rfl hlen
    have e1 : starEigh 4 (spectralMatrix true starGraph (fun _ => none) [0, 1, 2, 3]) = starVectors := by
      rw [starMatrix_eq, starEigh_star]
    have h6 : (0 : ℝ) < 1 / √6 := one_div_pos.2 (Real.sqrt_pos.2 (by norm_num))
    have h26 : ¬ (0 : ℝ) < -(2 / √6) := not_lt.2 (neg_nonpos.2 (div_nonneg (by norm_num) (Real.sqrt_nonneg _)))
    show (⟨(List.finRange 4).map _⟩ : Dict (Fin 4) (Fin 2)) = _
    have e2 : ∀ x : Fin 4, starEigh 4 (spectralMatrix true starGraph (fun _ => none) [0, 1, 2, 3]) x 1 = starVectors x 1 := fun x => by rw [e1]
    have v0 : starVectors 0 1 = 0 := rfl
    have v1 : starVectors 1 1 = 1 / √6 := rfl
    have v2 : starVectors 2 1 = 1 / √6 := rfl
    have v3 : starVectors 3 1 = -(2 / √6) := rfl
    have hfr : List.finRange 4 = [0, 1, 2, 3] := by decide
    rw [hfr]
    have c0 : (if (0 : ℝ) < starEigh 4 (spectralMatrix true starGraph (fun _ => none) [0, 1, 2, 3]) 0 1 then (1 : Fin 2) else 0) = 0 := by
      rw [e2, v0, if_neg (lt_irrefl _)]
    have c1 : (if (0 : ℝ) < starEigh 4 (spectralMatrix true starGraph (fun _ => none) [0, 1, 2, 3]) 1 1 then (1 : Fin 2) else 0) = 1 := by
      rw [e2, v1, if_pos h6]
    have c2 : (if (0 : ℝ) < starEigh 4 (spectralMatrix true starGraph (fun _ => none) [0, 1, 2, 3]) 2 1 then (1 : Fin 2) else 0) = 1 := by
      rw [e2, v2, if_pos h6]
    have c3 : (if (0 : ℝ) < starEigh 4 (spectralMatrix true starGraph (fun _ => none) [0, 1, 2, 3]) 3 1 then (1 : Fin 2) else 0) = 0 := by
      rw [e2, v3, if_neg h26]
    exact congrArg Dict.mk (congrArg₂ List.cons (congrArg (Prod.mk (0 : Fin 4)) c0) (congrArg₂ List.cons (congrArg (Prod.mk (1 : Fin 4)) c1)
      (congrArg₂ List.cons (congrArg (Prod.mk (2 : Fin 4)) c2) (congrArg₂ List.cons (congrArg (Prod.mk (3 : Fin 4)) c3) rfl))))
  have hf' : f = ⟨[(0, 0), (1, 1), (2, 1), (3, 0)]⟩ := hf.trans (gen _ (by decide) hlen)
  subst hf'
  have hb2 : starPlan.flip ⟨[(0, 0), (1, 1), (2, 1), (3, 0)]⟩ = .ok b := hb
  have hparts : (starPlan.flip ⟨[(0, 0), (1, 1), (2, 1), (3, 0)]⟩).map (fun b => (b.parts.get? 0, b.parts.get? 1)) =
      .ok (some ({0, 3} : Finset (Fin 4)), some ({1, 2} : Finset (Fin 4))) := by decide +kernel
  rw [hb2] at hparts
  have hp := Except.ok.inj hparts
  have hp0 : b.parts.get? 0 = some {0, 3} := (Prod.mk.inj hp).1
  have hp1 : b.parts.get? 1 = some {1, 2} := (Prod.mk.inj hp).2
  refine ⟨_, w', b, h1, hb, hp0, hp1, fun hcon => ?_⟩
  have hc := (hcon 1 _ hp1).2 1 (by decide) 2 (by decide)
  have : (2 : Fin 4) = 1 := closed_of_reach (C := fun z => z = 1) hc rfl (fun a b ha hab => by
    subst ha
    obtain ⟨k1, k2, k3⟩ := hab
    revert b
    decide)
  exact absurd this (by decide)

/-! ### On partition objects -/

/-- what `spectral_recom` does to the heap when it returns -/
theorem spectralRecom_ok {R : Rand S} {eigh : Eigh} {rnd nrm : Bool} {limit st q : ℕ} {s s1 : World V P (EdgeWeights V × S)}
    (h : spectralRecom R eigh rnd nrm limit st s = (.ok q, s1)) :
    ∃ v cuts flips F w', s.1.frame.view st = some v ∧ (getitem s.1.frame limit .cutEdges st s.1.caches).1 = .ok (.edgeSet cuts) ∧
      spectralFlips R eigh rnd nrm s.1.frame.data.graph v.assignment cuts s.2 = (.ok flips, w') ∧ s1.2 = w' ∧
      s.1.frame.flip st flips = .ok F ∧ q = s.1.frame.objs.length ∧
      s1.1 = ⟨F, (s.1.step (.lookup st .cutEdges limit)).caches⟩ := by
  unfold spectralRecom at h
  obtain ⟨v, w1, h1, g1⟩ := M.bind_eq_ok h
  obtain ⟨hw1, hv⟩ := viewObj_eq h1
  obtain ⟨w, w2, h2, g2⟩ := M.bind_eq_ok g1
  have hw2 : w = s ∧ w2 = s := by rw [← hw1]; cases h2; exact ⟨rfl, rfl⟩
  rw [hw2.1, hw2.2] at g2
  obtain ⟨x, w3, h3, g3⟩ := M.bind_eq_ok g2
  obtain ⟨cuts, w4, h4, g4⟩ := M.bind_eq_ok g3
  obtain ⟨h4', rfl⟩ := M.lift_eq_ok h4
  obtain ⟨flips, w5, h5, g5⟩ := M.bind_eq_ok g4
  obtain ⟨h6, h7⟩ := M.onRest_eq h5
  unfold lookupKey at h3
  have hx : x = .edgeSet cuts := by
    unfold Val.asEdgeSet at h4'
    cases x <;> cases h4'
    rfl
  subst hx
  have e1 := (Prod.mk.inj h3).1
  have e2 := (Prod.mk.inj h3).2
  have hfr : w5.1.frame = s.1.frame := by rw [h7, ← e2]; rfl
  have g5' := g5
  unfold flipObj at g5'
  rcases hf : w5.1.frame.flip st flips with e | F
  · rw [hf] at g5'; cases g5'
  · rw [hf] at g5'
    cases g5'
    refine ⟨v, cuts, flips, F, w5.2, (hv v).1 rfl, e1, ?_, rfl, ?_, ?_, ?_⟩
    · rw [← e2] at h6; exact h6
    · rw [← hfr]; exact hf
    · rw [← hfr]
    · show (⟨F, w5.1.caches⟩ : Heap V P) = _
      rw [h7, ← e2]

theorem spectralFlips_wf {R : Rand S} (hR : R.Valid) {eigh : Eigh} {rnd nrm : Bool} {G : Graph V} {a : Assignment V P} {cuts : Finset (V × V)}
    {w w' : EdgeWeights V × S} {f : Dict V P} (h : spectralFlips R eigh rnd nrm G a cuts w = (.ok f, w')) : f.WF := by
  obtain ⟨e, he, pq, s, w1, h1, h2, h3, h4⟩ := spectralFlips_ok hR h
  obtain ⟨hlen, rfl⟩ := spectralCut_ok h4
  exact clusters_wf (nodup_iter _) hlen _ _

/-- `spectral_recom` is one of the proposals covered by the theorems on chains. -/
theorem spectralRecom_flipProposal {R : Rand S} (hR : R.Valid) {eigh : Eigh} {rnd nrm : Bool} {limit : ℕ} :
    FlipProposal (spectralRecom R eigh rnd nrm limit : ℕ → M (World V P (EdgeWeights V × S)) ℕ) := by
  constructor
  · intro st s q s1 h
    obtain ⟨v, cuts, flips, F, w', -, -, h4, -, h5, h6, h7⟩ := spectralRecom_ok h
    exact ⟨[.lookup st .cutEdges limit], by simp [Op.IsLookup], .inr ⟨flips, F, spectralFlips_wf hR h4, h5, h7, h6⟩⟩
  · intro st s e s1 h
    unfold spectralRecom at h
    rcases M.bind_eq_error h with h1 | ⟨v, w1, h1, g1⟩
    · exact ⟨[], by simp, by rw [(viewObj_eq h1).1]; rfl⟩
    obtain ⟨rfl, hv⟩ := viewObj_eq h1
    rcases M.bind_eq_error g1 with h2 | ⟨w, w2, h2, g2⟩
    · cases h2
    cases h2
    refine ⟨[.lookup st .cutEdges limit], by simp [Op.IsLookup], ?_⟩
    rcases M.bind_eq_error g2 with h3 | ⟨x, w3, h3, g3⟩
    · rw [← (Prod.mk.inj h3).2]; rfl
    have e2 := (Prod.mk.inj h3).2
    rcases M.bind_eq_error g3 with h4 | ⟨cuts, w4, h4, g4⟩
    · rw [← (Prod.mk.inj h4).2, ← e2]; rfl
    obtain ⟨-, rfl⟩ := M.lift_eq_ok h4
    rcases M.bind_eq_error g4 with h5 | ⟨flips, w5, h5, g5⟩
    · rw [(M.onRest_eq h5).2, ← e2]; rfl
    rcases flipObj_eq g5 with ⟨F, -, k2, -⟩ | ⟨e, -, k2⟩
    · cases k2
    · rw [k2, (M.onRest_eq h5).2, ← e2]; rfl

/-- **C78** Whenever `spectral_recom` returns on a contiguous plan, with a correct `eigh` and positive weights, it returns a new child of the partition
whose plan differs only inside the union of two districts joined by an edge; both keep their labels and are nonempty, and one of them is connected. -/
theorem C78_spectral_partial (R : Rand S) (hR : R.Valid) (eigh : Eigh) (hE : GoodEigh V eigh) (rnd nrm : Bool) (limit st q : ℕ)
    (s s1 : World V P (EdgeWeights V × S)) (hs : HeapInv s.1) (v : View V P) (hv : s.1.frame.view st = some v)
    (hc : ContiguousPlan s.1.frame.data.graph v.assignment) (h : spectralRecom R eigh rnd nrm limit st s = (.ok q, s1))
    (hpos : PosWeights s.1.frame.data.graph s1.2.1) :
    ∃ w, s1.1.frame.view q = some w ∧ w.parent = some st ∧ (∀ v', s.1.frame.view q ≠ some v') ∧
      ∃ p p', SpectralSplit s.1.frame.data.graph p p' v.assignment w.assignment := by
  obtain ⟨v', cuts, flips, F, w', h1, h3, h4, hw', h5, h6, h7⟩ := spectralRecom_ok h
  rw [hv] at h1; cases h1
  have hcor := getitem_sat hs.frame limit .cutEdges st _ hs.caches
  rcases hg : getitem s.1.frame limit .cutEdges st s.1.caches with ⟨r, c'⟩
  rw [hg] at hcor h3
  simp only at h3
  subst h3
  obtain ⟨-, v2, hv2, hcc⟩ := hcor
  rw [hv] at hv2; cases hv2
  have hcuts : cuts = cutsOf s.1.frame.data.graph v.assignment.mapping := hcc
  subst hcuts
  obtain ⟨-, -, v3, b, hv3, hb, w, hw, hwb, hwp⟩ := hs.frame.flip (spectralFlips_wf hR h4) h5
  rw [hv] at hv3; cases hv3
  rw [hw'] at hpos
  have hsplit := C78_flips hR hE hs.frame.graph (hs.frame.coherent _ _ hv) (hs.frame.covers _ _ hv) hc h4 hpos hb
  subst hwb
  refine ⟨w, ?_, hwp, ?_, hsplit⟩
  · rw [h7, h6]; exact hw
  · intro v' hv'
    have := Frame.lt_of_view hv'
    omega

/-! ### Examples -/

/-- the run of `C78_violation` satisfies the hypotheses of `C78_flips`: the district 0 is connected and none is empty -/
example (R : Rand S) (hR : R.Valid) (w : EdgeWeights (Fin 4) × S) (hw : w.1 = fun _ => none) :
    ∃ f w' b p q, spectralFlips R starEigh false true starGraph starPlan (cutsOf starGraph starPlan.mapping) w = (.ok f, w') ∧
      starPlan.flip f = .ok b ∧ SpectralSplit starGraph p q starPlan b := by
  obtain ⟨f, w', b, h1, h2, -⟩ := C78_violation R hR w hw
  have hp : PosWeights starGraph w'.1 := by
    rw [C79_unchanged_partial hR h1, hw]
    intro e _ x hx; cases hx
  obtain ⟨p, q, hpq⟩ := C78_flips hR (starEigh_good (Fin 4)) starGraph_wf starPlan_coherent starPlan_covers starPlan_contiguous h1 hp h2
  exact ⟨f, w', b, p, q, h1, h2, hpq⟩

/-- two nodes and an edge -/
def pairGraph : Graph (Fin 2) := ⟨{0, 1}, {(0, 1)}⟩

/-- one district for each node -/
def pairPlan : Assignment (Fin 2) (Fin 2) := ⟨⟨[(0, {0}), (1, {1})]⟩, ⟨[(0, 0), (1, 1)]⟩⟩

theorem pair_facts : pairGraph.WF ∧ pairPlan.Coherent ∧ pairPlan.Covers pairGraph.nodes ∧ ContiguousPlan pairGraph pairPlan ∧
    cutsOf pairGraph pairPlan.mapping = {(0, 1)} := by
  have hwf : pairGraph.WF := ⟨by decide, by decide, by decide⟩
  refine ⟨hwf, ⟨by unfold Dict.WF; decide, by unfold Dict.WF; decide, by decide, by decide⟩, by unfold Assignment.Covers; decide, ?_, by decide +kernel⟩
  have h : ∀ s : Finset (Fin 2), nxIsConnected (pairGraph.subgraph s) = .ok true → ConnectedOn pairGraph s := by
    intro s hs
    rw [nxIsConnected_true (hwf.subgraph s)] at hs
    exact (connectedOn_subgraph (Finset.subset_univ s)).1 hs
  intro p s hs
  fin_cases p <;> cases hs <;> exact h _ (by decide +kernel)

/-- the hypotheses of `C78_contiguous` hold for two nodes and every correct `eigh`: the second eigenvector has no zero -/
example (R : Rand S) (hR : R.Valid) (eigh : Eigh) (hE : GoodEigh (Fin 2) eigh) (nrm : Bool) (w : EdgeWeights (Fin 2) × S)
    (hw : w.1 = fun _ => none) :
    ∃ f w' b, spectralFlips R eigh false nrm pairGraph pairPlan (cutsOf pairGraph pairPlan.mapping) w = (.ok f, w') ∧
      pairPlan.flip f = .ok b ∧ ContiguousPlan pairGraph b := by
  obtain ⟨hG, ha, hcov, hc, hcuts⟩ := pair_facts
  obtain ⟨f, w', h1, b, hb⟩ := (C78_outcomes hR eigh false nrm hG ha hcov hc w).1 (by rw [hcuts]; exact Finset.singleton_nonempty _)
  have hw' : w'.1 = fun _ => none := (C79_unchanged_partial hR h1).trans hw
  have hp : ∀ G : Graph (Fin 2), PosWeights G w'.1 := by
    rw [hw']
    intro G e _ x hx; cases hx
  refine ⟨f, w', b, h1, hb, C78_contiguous hR hE hG ha hcov hc h1 (hp _) hb ?_⟩
  have key : ∀ H : Graph (Fin 2), H = pairGraph → ∀ hlen i, eigh _ (spectralMatrix nrm H w'.1 (iter H.nodes)) i ⟨1, hlen⟩ ≠ 0 := by
    rintro H rfl hlen i
    obtain ⟨vals, hU⟩ := hE nrm pairGraph w'.1 hG (hp _)
    obtain ⟨⟨x, hx⟩, ⟨y, hy⟩, -⟩ := clusters_sides nrm hG (hp _) ((nxIsConnected_true hG).1 (by decide +kernel)) (nodup_iter _)
      (fun v => mem_iter) hlen hU
    have hxy : x ≠ y := by
      rintro rfl
      exact absurd hx (not_lt.2 hy.le)
    have hle : (iter pairGraph.nodes).length = 2 := rfl
    have : i = x ∨ i = y := by
      have h5 : x.val ≠ y.val := fun h => hxy (Fin.ext h)
      have h6 := x.2
      have h7 := y.2
      have h8 := i.2
      have : i.val = x.val ∨ i.val = y.val := by omega
      exact this.imp Fin.ext Fin.ext
    rcases this with rfl | rfl
    · exact hx.ne'
    · exact hy.ne
  intro p q s t hs ht hlen i
  refine key _ ?_ hlen i
  have hst : s ∪ t = {0, 1} := by
    have hcard : 1 < (pairGraph.subgraph (s ∪ t)).nodes.card := by rw [← length_iter]; exact hlen
    have h3 : 2 ≤ (s ∪ t).card := le_trans hcard (Finset.card_le_card Finset.inter_subset_right)
    have h4 : (s ∪ t) = Finset.univ := by
      rw [← Finset.card_eq_iff_eq_univ]
      refine le_antisymm (Finset.card_le_univ _) ?_
      simpa using h3
    rw [h4]; rfl
  rw [hst]
  unfold Graph.subgraph
  congr 1

/-- the hypotheses of `C79_count_violation` hold: two nodes, `weight_type="random"` -/
example (R : Rand S) (hR : R.Valid) (w : EdgeWeights (Fin 2) × S) (hw : ∀ e, w.1 e = none) :
    ∃ f w', spectralFlips R anyEigh true true pairGraph pairPlan (cutsOf pairGraph pairPlan.mapping) w = (.ok f, w') ∧
      treesInDistrict pairGraph w.1 [0, 1] = .ok 1 ∧ ∃ x < 1, treesInDistrict pairGraph w'.1 [0, 1] = .ok x := by
  obtain ⟨hG, ha, hcov, hc, hcuts⟩ := pair_facts
  obtain ⟨f, w', h1, b, hb⟩ := (C78_outcomes hR anyEigh true true hG ha hcov hc w).1 (by rw [hcuts]; exact Finset.singleton_nonempty _)
  obtain ⟨e, he, pq, s, h2, h3, h4⟩ := C79_count_violation hR hG hw h1
  rw [hcuts, Finset.mem_singleton] at he
  subst he
  obtain ⟨k1, k2⟩ := endLabels_ok h2
  obtain ⟨s1, s2, m1, m2, rfl⟩ := mergedNodes_ok h3
  have := h4 0 1 (by decide) (by decide) (Finset.mem_union_left _ ((ha.agree _ _ m1 _).2 k1)) (Finset.mem_union_right _ ((ha.agree _ _ m2 _).2 k2))
  exact ⟨f, w', h1, this⟩

end GC

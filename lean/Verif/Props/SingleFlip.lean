import Verif.Props.Contiguity
import Verif.Model.Constraints
import Mathlib.Tactic.Linarith

/-!
# C23 – C25, C59: contiguity, continued
-/

set_option linter.unusedSectionVars false
set_option autoImplicit false

namespace GC

variable {V P : Type} [LinearOrder V] [DecidableEq P]

/-! ### C25 -/

/-- Removing `n` from `s`: a path in `s` from `u ≠ n` either avoids `n` or reaches a neighbour of `n` without using `n`. -/
theorem reach_erase {G : Graph V} {s : Finset V} {n u x : V} (hu : u ∈ s.erase n) (h : ReachIn G s u x) :
    ReachIn G (s.erase n) u x ∨ ∃ m, G.Adj n m ∧ ReachIn G (s.erase n) u m := by
  induction h with
  | refl => exact .inl Relation.ReflTransGen.refl
  | @tail b c _ hbc ih =>
    rcases ih with ih | ih
    · have hb := ih.mem hu
      by_cases hc : c = n
      · subst hc
        exact .inr ⟨b, hbc.1.symm, ih⟩
      · exact .inl (ih.tail ⟨hbc.1, hb, Finset.mem_erase.2 ⟨hc, hbc.2.2⟩⟩)
    · exact .inr ih

/-- The part of `s` left after removing `n` is connected iff the neighbours of `n` in it are mutually reachable and exist. -/
theorem connectedOn_erase_iff {G : Graph V} {s : Finset V} {n : V} (hs : ConnectedOn G s) (hn : n ∈ s) {start : V}
    (hst : start ∈ s.erase n) :
    ConnectedOn G (s.erase n) ↔ ∀ m ∈ s.erase n, G.Adj n m → ReachIn G (s.erase n) start m := by
  constructor
  · intro h m hm _
    exact h.2 start hst m hm
  · intro h
    refine connectedOn_of_root hst (fun x hx => ?_)
    rcases reach_erase hx (hs.2 x (Finset.mem_of_mem_erase hx) n hn) with hr | ⟨m, h1, h2⟩
    · exact absurd (hr.mem hx) (Finset.notMem_erase n s)
    · exact (h m (h2.mem hx) h1).trans h2.symm

theorem connectedOn_insert {G : Graph V} {s : Finset V} {n m : V} (hs : ConnectedOn G s) (hm : m ∈ s) (ha : G.Adj n m) :
    ConnectedOn G (insert n s) := by
  refine connectedOn_of_root (r := m) (Finset.mem_insert_of_mem hm) (fun x hx => ?_)
  rcases Finset.mem_insert.1 hx with rfl | hx
  · exact Relation.ReflTransGen.single ⟨ha.symm, Finset.mem_insert_of_mem hm, Finset.mem_insert_self _ _⟩
  · exact (hs.2 m hm x hx).mono (Finset.subset_insert _ _)

/-- Paths that stay in one district, as `partition_edge_avoid` describes them. -/
theorem reach_same_part {G : Graph V} {f : Dict V P} {A : P} {s : Finset V} (hs : ∀ x, x ∈ s ↔ f.get? x = some A)
    {u x : V} (hu : u ∈ s) :
    Relation.ReflTransGen (fun a b => G.Adj a b ∧ decide (f.get? a ≠ f.get? b) = false) u x ↔ ReachIn G s u x := by
  constructor
  · intro h
    have : x ∈ s ∧ ReachIn G s u x := by
      induction h with
      | refl => exact ⟨hu, Relation.ReflTransGen.refl⟩
      | @tail b c _ hbc ih =>
        obtain ⟨h1, h2⟩ := ih
        have hb := (hs b).1 h1
        have heq : f.get? b = f.get? c := by simpa using hbc.2
        have hc : c ∈ s := (hs c).2 (heq ▸ hb)
        exact ⟨hc, h2.tail ⟨hbc.1, h1, hc⟩⟩
    exact this.2
  · intro h
    refine Relation.ReflTransGen.mono ?_ _ _ h
    intro a b hab
    refine ⟨hab.1, ?_⟩
    have h1 := (hs a).1 hab.2.1
    have h2 := (hs b).1 hab.2.2
    simp [h1, h2]

theorem singleFlip_child {F : Frame V P} (hF : FrameInv F) (ord : SetOrder P) {p q : ℕ} {v w : View V P} {n : V} {A B : P}
    (hv : F.view p = some v) (hp : v.parent = some q) (hw : F.view q = some w)
    (hcw : ContiguousPlan F.data.graph w.assignment) (hfl : v.flips = some ⟨[(n, B)]⟩)
    (hA : w.assignment.mapping.get? n = some A) (hAB : A ≠ B)
    (hB : ∃ m, F.data.graph.Adj n m ∧ w.assignment.mapping.get? m = some B)
    {adj : Dict V (List V)} (ha : AdjDict F.data.graph adj) (draw : V → ℕ) {fuel : ℕ}
    (hf : 1 + (∑ v ∈ F.data.graph.nodes, ((adj.get? v).getD []).length) ≤ fuel) :
    ∃ b, singleFlipContiguous fuel ord adj draw F p = some (.ok b) ∧
      (b = true ↔ ContiguousPlan F.data.graph v.assignment) := by
  have hG := hF.graph
  have hcv := hF.coherent p v hv
  have hcow := hF.coherent q w hw
  obtain ⟨flips, l, hfl', hs, -, -⟩ := affectedParts_child hF ord hv hp hw
  rw [hfl] at hfl'
  cases hfl'
  have hget : ∀ x, v.assignment.mapping.get? x = if x = n then some B else w.assignment.mapping.get? x := by
    intro x
    rw [hs.get?]
    unfold Dict.get?
    by_cases hx : x = n
    · subst hx; simp
    · have : ¬ n = x := fun h => hx h.symm
      simp [hx, this]
  obtain ⟨sA, hsA⟩ := Dict.mem_keys_iff.1 (hcow.complete n A hA)
  obtain ⟨m, hnm, hmB⟩ := hB
  obtain ⟨sB, hsB⟩ := Dict.mem_keys_iff.1 (hcow.complete m B hmB)
  have mA : ∀ x, x ∈ sA ↔ w.assignment.mapping.get? x = some A := hcow.agree A sA hsA
  have mB : ∀ x, x ∈ sB ↔ w.assignment.mapping.get? x = some B := hcow.agree B sB hsB
  have hnA : n ∈ sA := (mA n).2 hA
  -- the districts of the child
  have hdist : ∀ part t, v.assignment.parts.get? part = some t →
      (part = A → t = sA.erase n) ∧ (part = B → t = insert n sB) ∧
      (part ≠ A → part ≠ B → w.assignment.parts.get? part = some t) := by
    intro part t ht
    have hmt := hcv.agree part t ht
    refine ⟨?_, ?_, ?_⟩
    · rintro rfl
      ext x
      rw [hmt, hget, Finset.mem_erase, mA]
      by_cases hx : x = n
      · subst hx; simp; exact fun h => hAB h.symm
      · simp [hx]
    · rintro rfl
      ext x
      rw [hmt, hget, Finset.mem_insert, mB]
      by_cases hx : x = n
      · subst hx; simp
      · simp [hx]
    · intro h1 h2
      refine unaffected_same hF hv hw hs ht ?_
      rintro ⟨y, r, hy, h⟩
      unfold Dict.get? at hy
      by_cases hyn : n = y
      · subst hyn
        simp at hy
        subst hy
        rcases h with rfl | h
        · exact h2 rfl
        · rw [hA] at h; cases h; exact h1 rfl
      · simp [hyn] at hy
  obtain ⟨tA, htA⟩ : ∃ t, v.assignment.parts.get? A = some t := by
    rw [← Dict.mem_keys_iff, hs.keys]; exact hcow.complete n A hA
  have htA' := (hdist A tA htA).1 rfl
  subst htA'
  -- contiguity of the child is connectedness of what is left of A
  have hplan : ContiguousPlan F.data.graph v.assignment ↔ ConnectedOn F.data.graph (sA.erase n) := by
    constructor
    · intro h; exact h A _ htA
    · intro h part t ht
      obtain ⟨h1, h2, h3⟩ := hdist part t ht
      by_cases e1 : part = A
      · rw [h1 e1]; exact h
      · by_cases e2 : part = B
        · rw [h2 e2]
          exact connectedOn_insert (hcw B sB hsB) ((mB m).2 hmB) hnm
        · exact hcw part t (h3 e1 e2)
  have hnode : n ∈ F.data.graph.nodes := district_subset hF hw hsA hnA
  obtain ⟨nb, hnb1, hnb2, hnb3⟩ := ha.get hnode
  have hold : ∀ x, x ∈ nb.filter (fun m => v.assignment.mapping.get? m = some A) ↔ F.data.graph.Adj n x ∧ x ∈ sA.erase n := by
    intro x
    simp only [List.mem_filter, decide_eq_true_eq, hnb3, hcv.agree A _ htA x]
  have htr : (F.truthyParent v).bind F.view = some w := by
    unfold Frame.truthyParent
    rw [hp]
    simp only
    rw [hw]
    have : w.assignment.parts.entries.isEmpty = false := by
      have := Dict.mem_entries_of_get? hsA
      rcases hh : w.assignment.parts.entries with _ | ⟨e, es⟩
      · rw [hh] at this; simp at this
      · rfl
    simp [this, hw]
  unfold singleFlipContiguous
  rw [hv]
  simp only [hfl]
  rw [htr]
  simp only [List.isEmpty_cons, Bool.false_eq_true, if_false]
  have hkeys : (⟨[(n, B)]⟩ : Dict V P).keys = [n] := rfl
  rw [hkeys]
  unfold singleFlipLoop
  rw [Dict.get_eq_ok_iff.2 hA]
  simp only
  rw [hnb2]
  simp only
  generalize hol : nb.filter (fun m => decide (v.assignment.mapping.get? m = some A)) = old at hold ⊢
  rcases ho : old[draw n % old.length]? with _ | start
  · refine ⟨false, rfl, ?_⟩
    simp only [Bool.false_eq_true, false_iff]
    rw [hplan]
    intro hc
    have hnil : old = [] := by
      by_contra hne
      have : draw n % old.length < old.length := Nat.mod_lt _ (List.length_pos_iff.2 hne)
      rw [List.getElem?_eq_getElem this] at ho
      cases ho
    obtain ⟨x, hx⟩ := hc.1
    rcases reach_erase hx ((hcw A sA hsA).2 x (Finset.mem_of_mem_erase hx) n hnA) with hr | ⟨m, h1, h2⟩
    · exact absurd (hr.mem hx) (Finset.notMem_erase n sA)
    · have := (hold m).2 ⟨h1, h2.mem hx⟩
      rw [hnil] at this
      simp at this
  · have hst : start ∈ old := List.mem_of_getElem? ho
    have hst' := (hold start).1 hst
    have hsn : start ∈ F.data.graph.nodes := (hG.mem_of_adj hst'.1).2
    obtain ⟨b, hb, hb'⟩ := areReachable_spec hG ha hsn
      (fun a b => decide (v.assignment.mapping.get? a ≠ v.assignment.mapping.get? b)) old hf
    refine ⟨b, ?_, ?_⟩
    · simp only
      rw [hb]
      cases b <;> simp [singleFlipLoop]
    · rw [hb', hplan, connectedOn_erase_iff (hcw A sA hsA) hnA hst'.2]
      have hmA : ∀ x, x ∈ sA.erase n ↔ v.assignment.mapping.get? x = some A := hcv.agree A _ htA
      constructor
      · intro h m hm hadj
        exact (reach_same_part hmA hst'.2).1 (h m ((hold m).2 ⟨hadj, hm⟩))
      · intro h t ht
        have := (hold t).1 ht
        exact (reach_same_part hmA hst'.2).2 (h t this.2 this.1)

section
variable {D : GraphData V} {ups : List Key} {ops : List (Op V P)}

/-- **C25.** A child of a contiguous plan flips one node `n` from district `A` to another district `B` containing a neighbour
of `n`.  Then `single_flip_contiguous(child)` returns, and answers `True` exactly when all districts of the child are
nonempty and connected; for every random choice of the start neighbour and every order of the adjacency lists. -/
theorem C25_single_flip (hD : D.graph.WF) (hops : ∀ op ∈ ops, op.WF) (ord : SetOrder P) {p q : ℕ} {v w : View V P} {n : V}
    {A B : P} (hv : (Heap.after D ups ops).frame.view p = some v) (hp : v.parent = some q)
    (hw : (Heap.after D ups ops).frame.view q = some w) (hcw : ContiguousPlan D.graph w.assignment)
    (hfl : v.flips = some ⟨[(n, B)]⟩) (hA : w.assignment.mapping.get? n = some A) (hAB : A ≠ B)
    (hB : ∃ m, D.graph.Adj n m ∧ w.assignment.mapping.get? m = some B)
    {adj : Dict V (List V)} (ha : AdjDict D.graph adj) (draw : V → ℕ) {fuel : ℕ}
    (hf : 1 + (∑ v ∈ D.graph.nodes, ((adj.get? v).getD []).length) ≤ fuel) :
    ∃ b, singleFlipContiguous fuel ord adj draw (Heap.after D ups ops).frame p = some (.ok b) ∧
      (b = true ↔ ContiguousPlan D.graph v.assignment) := by
  obtain ⟨hi, hd, -⟩ := after_inv (P := P) (ups := ups) hD hops
  have := singleFlip_child hi.frame ord hv hp hw (by rw [hd]; exact hcw) hfl hA hAB (by rw [hd]; exact hB)
    (by rw [hd]; exact ha) draw (fuel := fuel) (by rw [hd]; exact hf)
  rw [hd] at this
  exact this

/-! ### C23: what happens with emptied districts -/

/-- **C23 (fresh plans).** For a partition made from an assignment `contiguous()` always returns, `True` iff every district
is connected. -/
theorem C23_fresh (hD : D.graph.WF) (hops : ∀ op ∈ ops, op.WF) (ord : SetOrder P) {p : ℕ} {v : View V P}
    (hv : (Heap.after D ups ops).frame.view p = some v) (hfl : v.flips = none) :
    ∃ b, contiguous ord (Heap.after D ups ops).frame p = .ok b ∧ (b = true ↔ ContiguousPlan D.graph v.assignment) := by
  obtain ⟨hi, -, -⟩ := after_inv (P := P) (ups := ups) hD hops
  obtain ⟨h1, h2⟩ := C23_initial hD hops ord hv hfl
  obtain ⟨b, hb⟩ := h2 (hi.frame.fresh p v hv hfl).2
  refine ⟨b, hb, ?_⟩
  rw [← h1, hb]
  simp

/-! ### C59 -/

/-- `cs` lists the connected components of the subgraph induced by `s`. -/
structure IsComponents (G : Graph V) (s : Finset V) (cs : List (Finset V)) : Prop where
  cover : ∀ x ∈ s, ∃ c ∈ cs, x ∈ c
  sub : ∀ c ∈ cs, c ⊆ s
  connected : ∀ c ∈ cs, ConnectedOn G c
  closed : ∀ c ∈ cs, ∀ x ∈ c, ∀ y ∈ s, G.Adj x y → y ∈ c
  disjoint : cs.Pairwise Disjoint

theorem component_fold {G : Graph V} (hG : G.WF) (l : List V) (hl : ∀ v ∈ l, v ∈ G.nodes) (st : Finset V × List (Finset V))
    (h1 : ∀ x, x ∈ st.1 ↔ ∃ c ∈ st.2, x ∈ c) (h2 : ∀ c ∈ st.2, ∃ v ∈ G.nodes, c = component G v)
    (h3 : st.2.Pairwise Disjoint) :
    ∀ st', st' = l.foldl (fun (st : Finset V × List (Finset V)) v =>
        if v ∈ st.1 then st else (st.1 ∪ component G v, st.2 ++ [component G v])) st →
      (∀ x, x ∈ st'.1 ↔ ∃ c ∈ st'.2, x ∈ c) ∧ (∀ c ∈ st'.2, ∃ v ∈ G.nodes, c = component G v) ∧ st'.2.Pairwise Disjoint ∧
      (∀ x ∈ st.1, x ∈ st'.1) ∧ ∀ x ∈ l, x ∈ st'.1 := by
  induction l generalizing st with
  | nil => rintro st' rfl; exact ⟨h1, h2, h3, fun _ h => h, by simp⟩
  | cons v l ih =>
    have hvn := hl v List.mem_cons_self
    have hl' := fun x hx => hl x (List.mem_cons_of_mem _ hx)
    intro st' hst
    rw [List.foldl_cons] at hst
    by_cases hv : v ∈ st.1
    · rw [if_pos hv] at hst
      obtain ⟨a, b, c, d, e⟩ := ih hl' st h1 h2 h3 st' hst
      refine ⟨a, b, c, d, ?_⟩
      intro x hx
      rcases List.mem_cons.1 hx with rfl | hx
      · exact d x hv
      · exact e x hx
    · rw [if_neg hv] at hst
      have k1 : ∀ x, x ∈ st.1 ∪ component G v ↔ ∃ c ∈ st.2 ++ [component G v], x ∈ c := by
        intro x
        simp only [Finset.mem_union, List.mem_append, List.mem_singleton, h1 x, or_and_right, exists_or, exists_eq_left]
      have k2 : ∀ c ∈ st.2 ++ [component G v], ∃ v ∈ G.nodes, c = component G v := by
        intro c hc
        rcases List.mem_append.1 hc with hc | hc
        · exact h2 c hc
        · exact ⟨v, hvn, List.mem_singleton.1 hc⟩
      have k3 : (st.2 ++ [component G v]).Pairwise Disjoint := by
        rw [List.pairwise_append]
        refine ⟨h3, List.pairwise_singleton _ _, ?_⟩
        intro c hc c' hc'
        rw [List.mem_singleton.1 hc', Finset.disjoint_left]
        intro x hx hx'
        obtain ⟨u, hu, rfl⟩ := h2 c hc
        apply hv
        rw [h1]
        refine ⟨_, hc, ?_⟩
        rw [mem_component hG hu] at hx ⊢
        rw [mem_component hG hvn] at hx'
        exact hx.trans hx'.symm
      obtain ⟨a, b, c, d, e⟩ := ih hl' (st.1 ∪ component G v, st.2 ++ [component G v]) k1 k2 k3 st' hst
      refine ⟨a, b, c, fun x hx => d x (Finset.mem_union_left _ hx), ?_⟩
      intro x hx
      rcases List.mem_cons.1 hx with rfl | hx
      · exact d x (Finset.mem_union_right _ ((mem_component hG hvn).2 Relation.ReflTransGen.refl))
      · exact e x hx

theorem connectedComponents_spec {G : Graph V} (hG : G.WF) : IsComponents G G.nodes (connectedComponents G) := by
  obtain ⟨h1, h2, h3, -, h5⟩ := component_fold hG (iter G.nodes) (fun v hv => mem_iter.1 hv) (∅, []) (by simp) (by simp)
    (by simp) _ rfl
  have hmem : ∀ v ∈ G.nodes, ∀ x ∈ component G v, x ∈ G.nodes := fun v hv x hx =>
    ((mem_component hG hv).1 hx).mem hv
  refine ⟨?_, ?_, ?_, ?_, h3⟩
  · intro x hx
    exact (h1 x).1 (h5 x (mem_iter.2 hx))
  · intro c hc x hx
    obtain ⟨v, hv, rfl⟩ := h2 c hc
    exact hmem v hv x hx
  · intro c hc
    obtain ⟨v, hv, rfl⟩ := h2 c hc
    refine connectedOn_of_root (r := v) ((mem_component hG hv).2 Relation.ReflTransGen.refl) ?_
    intro x hx
    have hr := (mem_component hG hv).1 hx
    -- the path stays in the component
    have : ∀ y, ReachIn G G.nodes v y → ReachIn G (component G v) v y := by
      intro y hy
      induction hy with
      | refl => exact Relation.ReflTransGen.refl
      | @tail b c hb hbc ih =>
        exact ih.tail ⟨hbc.1, (mem_component hG hv).2 hb, (mem_component hG hv).2 (hb.tail hbc)⟩
    exact this x hr
  · intro c hc x hx y hy hxy
    obtain ⟨v, hv, rfl⟩ := h2 c hc
    rw [mem_component hG hv] at hx ⊢
    exact hx.tail ⟨hxy, hx.mem hv, hy⟩

theorem isComponents_subgraph {G : Graph V} {s : Finset V} (hs : s ⊆ G.nodes) {cs : List (Finset V)}
    (h : IsComponents (G.subgraph s) (G.subgraph s).nodes cs) : IsComponents G s cs := by
  have hn : (G.subgraph s).nodes = s := Finset.inter_eq_right.2 hs
  rw [hn] at h
  refine ⟨h.cover, h.sub, ?_, ?_, h.disjoint⟩
  · intro c hc
    refine (connectedOn_congr ?_).1 (h.connected c hc)
    intro u hu v hv
    rw [Graph.subgraph_adj]
    exact ⟨fun x => x.1, fun x => ⟨x, h.sub c hc hu, h.sub c hc hv⟩⟩
  · intro c hc x hx y hy hxy
    exact h.closed c hc x hx y hy (Graph.subgraph_adj.2 ⟨hxy, h.sub c hc hx, hy⟩)

theorem mapM_components {G : Graph V} {a : Assignment V P} (l : List P) (hl : ∀ x ∈ l, ∃ s, a.parts.get? x = some s) :
    l.mapM (fun part => (do
      let g ← subgraphOf G a part
      return (part, connectedComponents g) : Py (P × List (Finset V)))) =
    .ok (l.map (fun part => (part, connectedComponents (G.subgraph ((a.parts.get? part).getD ∅))))) := by
  induction l with
  | nil => rfl
  | cons x l ih =>
    obtain ⟨s, hs⟩ := hl x List.mem_cons_self
    rw [List.mapM_cons, ih (fun y hy => hl y (List.mem_cons_of_mem _ hy))]
    have : subgraphOf G a x = .ok (G.subgraph s) := by
      unfold subgraphOf
      rw [Dict.get_eq_ok_iff.2 hs]
      rfl
    rw [this, List.map_cons, hs]
    rfl

/-- **C59 (components).** `contiguous_components(p)` returns, for the districts of `p` in order, the connected components of
the district: disjoint connected sets covering it, with no edge of the district leaving any of them. -/
theorem C59_components (hD : D.graph.WF) (hops : ∀ op ∈ ops, op.WF) {p : ℕ} {v : View V P}
    (hv : (Heap.after D ups ops).frame.view p = some v) :
    ∃ d, contiguousComponents (Heap.after D ups ops).frame p = .ok d ∧ d.keys = v.assignment.parts.keys ∧
      ∀ part s, v.assignment.parts.get? part = some s → ∃ cs, d.get? part = some cs ∧ IsComponents D.graph s cs := by
  obtain ⟨hi, hd, -⟩ := after_inv (P := P) (ups := ups) hD hops
  have hcoh := hi.frame.coherent p v hv
  unfold contiguousComponents
  rw [hv]
  simp only
  rw [mapM_components _ (fun x hx => Dict.mem_keys_iff.1 hx)]
  have hk : (⟨v.assignment.parts.keys.map (fun part => (part, connectedComponents
      ((Heap.after D ups ops).frame.data.graph.subgraph ((v.assignment.parts.get? part).getD ∅))))⟩ :
      Dict P (List (Finset V))).keys = v.assignment.parts.keys := by
    unfold Dict.keys
    simp [List.map_map, Function.comp_def]
  refine ⟨_, rfl, hk, ?_⟩
  intro part s hs
  refine ⟨connectedComponents (D.graph.subgraph s), ?_, ?_⟩
  · apply Dict.get?_of_mem_entries
    · unfold Dict.WF
      rw [hk]
      exact hcoh.parts_wf
    · refine List.mem_map.2 ⟨part, Dict.mem_keys_iff.2 ⟨s, hs⟩, ?_⟩
      rw [hs, hd]
      rfl
  · have hsub : s ⊆ D.graph.nodes := by rw [← hd]; exact district_subset hi.frame hv hs
    exact isComponents_subgraph hsub (connectedComponents_spec (hD.subgraph s))

open Classical in
theorem number_fold {F : Frame V P} (hF : FrameInv F) {p : ℕ} {v : View V P} (hv : F.view p = some v)
    (hne : NonemptyPlan v.assignment) (l : List P) (hl : ∀ x ∈ l, ∃ s, v.assignment.parts.get? x = some s) (n : ℕ) :
    l.foldlM (fun (n : ℕ) part => (do
      let g ← subgraphOf F.data.graph v.assignment part
      let b ← nxIsConnected g
      return if b then n + 1 else n : Py ℕ)) n =
    .ok (n + l.countP (fun part => decide (∃ s, v.assignment.parts.get? part = some s ∧ ConnectedOn F.data.graph s))) := by
  induction l generalizing n with
  | nil => simp [pure, Except.pure]
  | cons x l ih =>
    obtain ⟨s, hs⟩ := hl x List.mem_cons_self
    obtain ⟨h1, h2, -⟩ := check_part hF hv hs
    obtain ⟨b, hb⟩ := h2 (hne x s hs)
    have hiff : b = true ↔ ∃ t, v.assignment.parts.get? x = some t ∧ ConnectedOn F.data.graph t := by
      rw [hb] at h1
      rw [hs]
      simp only [Option.some.injEq, exists_eq_left']
      rw [← h1]
      simp
    rcases hg : subgraphOf F.data.graph v.assignment x with e | g
    · rw [hg] at hb; cases hb
    rw [hg] at hb
    have hb' : nxIsConnected g = .ok b := hb
    rw [List.foldlM_cons, List.countP_cons]
    simp only [hg, hb', bind, Except.bind, pure, Except.pure]
    have := ih (fun y hy => hl y (List.mem_cons_of_mem _ hy)) (if b = true then n + 1 else n)
    simp only [bind, Except.bind, pure, Except.pure] at this
    rw [this]
    congr 1
    simp only [← hiff]
    cases b <;> simp <;> omega

open Classical in
/-- **C59 (count).** If no district is empty, `number_of_contiguous_parts` is the number of connected districts. -/
theorem C59_number (hD : D.graph.WF) (hops : ∀ op ∈ ops, op.WF) {p : ℕ} {v : View V P}
    (hv : (Heap.after D ups ops).frame.view p = some v) (hne : NonemptyPlan v.assignment) :
    numberOfContiguousParts (Heap.after D ups ops).frame p =
      .ok ((v.assignment.parts.keys.toFinset.filter (fun part =>
        ∃ s, v.assignment.parts.get? part = some s ∧ ConnectedOn D.graph s)).card) := by
  obtain ⟨hi, hd, -⟩ := after_inv (P := P) (ups := ups) hD hops
  unfold numberOfContiguousParts
  rw [hv]
  simp only
  rw [number_fold hi.frame hv hne _ (fun x hx => Dict.mem_keys_iff.1 hx) 0, hd, Nat.zero_add]
  congr 1
  have hnd : v.assignment.parts.keys.Nodup := (hi.frame.coherent p v hv).parts_wf
  rw [List.countP_eq_length_filter, ← List.toFinset_card_of_nodup (hnd.filter _), List.toFinset_filter]
  congr 1
  ext x
  simp

/-- **C59 (constraint).** Once `no_more_discontiguous` has been called on a first plan with `n₀` connected districts, it
accepts a plan with `n` connected districts iff `n₀ ≤ n`, and the first plan itself is accepted. -/
theorem C59_no_more_discontiguous {F₀ F : Frame V P} {p₀ p n₀ n : ℕ} (h₀ : numberOfContiguousParts F₀ p₀ = .ok n₀)
    (h : numberOfContiguousParts F p = .ok n) :
    ∃ bound, noMoreDiscontiguous F₀ none p₀ = .ok (bound, true) ∧
      noMoreDiscontiguous F bound p = .ok (bound, decide (n₀ ≤ n)) := by
  have hpos : ((n₀ : ℚ) - 1 / 20) ≠ 0 := by
    intro hz
    have h20 : (20 : ℚ) * n₀ = 1 := by linarith
    have : 20 * n₀ = 1 := by exact_mod_cast h20
    omega
  refine ⟨some ((n₀ : ℚ) - 1 / 20), ?_, ?_⟩
  · unfold noMoreDiscontiguous
    rw [h₀]
    simp only [bind, Except.bind, pure, Except.pure, selfLowerCall, falsy, if_true, Option.getD_some]
    congr 2
    simp
  · unfold noMoreDiscontiguous
    rw [h]
    have hf : falsy (some ((n₀ : ℚ) - 1 / 20)) = false := by
      unfold falsy; simpa using hpos
    simp only [bind, Except.bind, pure, Except.pure, selfLowerCall, hf, Bool.false_eq_true, if_false, Option.getD_some]
    congr 2
    rw [decide_eq_decide]
    constructor
    · intro hle
      by_contra hlt
      have h1 : n + 1 ≤ n₀ := by omega
      have h2 : (n : ℚ) + 1 ≤ n₀ := by exact_mod_cast h1
      linarith
    · intro hle
      have h2 : (n₀ : ℚ) ≤ n := by exact_mod_cast hle
      linarith

end

/-! ### examples and counterexamples -/

/-- Increasing iteration order. -/
def natOrd : SetOrder ℕ := ⟨iter, fun _ _ => mem_iter, nodup_iter⟩

/-- A path 0 – 1 – 2 – 3 and a node 4 joined to 1 and 2. -/
def exData3 : GraphData ℕ := { exData with graph := ⟨{0, 1, 2, 3, 4}, {(0, 1), (1, 2), (2, 3), (4, 1), (4, 2)}⟩ }

theorem exData3_wf : exData3.graph.WF := by
  constructor <;> decide

/-- Districts {0, 1} and {2, 3, 4}. -/
def exDict3 : Dict ℕ ℕ := ⟨[(0, 1), (1, 1), (2, 2), (3, 2), (4, 2)]⟩

/-- A plan; move 1 to the other district; move 0 (which does not touch it); a second plan with {3, 4} disconnected. -/
def exOps3 : List (Op ℕ ℕ) := [.create exDict3, .flip 0 ⟨[(1, 2)]⟩, .flip 0 ⟨[(0, 2)]⟩,
  .create ⟨[(0, 1), (1, 1), (2, 1), (3, 2), (4, 2)]⟩]

theorem exOps3_wf : ∀ op ∈ exOps3, op.WF := by
  intro op hop
  simp only [exOps3, List.mem_cons, List.not_mem_nil, or_false] at hop
  rcases hop with rfl | rfl | rfl | rfl <;> simp [Op.WF, exDict3, Dict.WF, Dict.keys]

theorem exOps3_plan : ∃ w, (Heap.after exData3 exUps exOps3).frame.view 0 = some w ∧ w.flips = none ∧
    w.assignment.mapping = exDict3 ∧ ContiguousPlan exData3.graph w.assignment := by
  have h : ((Heap.after exData3 exUps exOps3).frame.view 0).map (fun w => (w.flips, w.assignment.mapping)) =
      some (none, exDict3) := by decide +kernel
  obtain ⟨w, hw, hw'⟩ := Option.map_eq_some_iff.1 h
  simp only [Prod.mk.injEq] at hw'
  refine ⟨w, hw, hw'.1, hw'.2, ?_⟩
  rw [← (C23_initial exData3_wf exOps3_wf natOrd hw hw'.1).1]
  decide +kernel

/-- The hypotheses of C23 – C25 are met: node 1 moves from {0, 1} to {2, 3, 4}, which it touches. -/
example : ∃ v w, (Heap.after exData3 exUps exOps3).frame.view 1 = some v ∧ v.parent = some 0 ∧
    v.flips = some ⟨[(1, 2)]⟩ ∧ (Heap.after exData3 exUps exOps3).frame.view 0 = some w ∧
    ContiguousPlan exData3.graph w.assignment ∧ w.assignment.mapping.get? 1 = some 1 ∧
    (∃ m, exData3.graph.Adj 1 m ∧ w.assignment.mapping.get? m = some 2) ∧
    AdjDict exData3.graph (toDictOfLists exData3.graph) ∧
    singleFlipContiguous 20 natOrd (toDictOfLists exData3.graph) (fun _ => 0) (Heap.after exData3 exUps exOps3).frame 1 =
      some (.ok true) ∧ ContiguousPlan exData3.graph v.assignment := by
  obtain ⟨w, hw, -, hm, hc⟩ := exOps3_plan
  have h : ((Heap.after exData3 exUps exOps3).frame.view 1).map (fun w => (w.parent, w.flips)) =
      some (some 0, some ⟨[(1, 2)]⟩) := by decide +kernel
  obtain ⟨v, hv, hv'⟩ := Option.map_eq_some_iff.1 h
  simp only [Prod.mk.injEq] at hv'
  refine ⟨v, w, hv, hv'.1, hv'.2, hw, hc, by rw [hm]; rfl, ⟨2, by decide, by rw [hm]; rfl⟩, toDictOfLists_adj exData3_wf,
    by decide +kernel, ?_⟩
  rw [← (C23_child exData3_wf exOps3_wf natOrd hv hv'.1 hw hc).1]
  decide +kernel

/-- **C25, hypothesis on the target**: moving node 0 to a district it does not touch is called contiguous. -/
theorem C25_nonadjacent_violation :
    singleFlipContiguous 20 natOrd (toDictOfLists exData3.graph) (fun _ => 0) (Heap.after exData3 exUps exOps3).frame 2 =
      some (.ok true) ∧
    contiguous natOrd (Heap.after exData3 exUps exOps3).frame 2 = .ok false := by
  constructor <;> decide +kernel

/-- **C25, single flips**: moving 1 and 2 together out of {0, 1, 2, 3} leaves {0, 3} and is called contiguous. -/
theorem C25_multi_flip_violation :
    singleFlipContiguous 20 natOrd (toDictOfLists exData3.graph) (fun _ => 0)
      (Heap.after exData3 exUps [.create ⟨[(0, 1), (1, 1), (2, 1), (3, 1), (4, 2)]⟩, .flip 0 ⟨[(1, 2), (2, 2)]⟩]).frame 1 =
      some (.ok true) ∧
    contiguous natOrd (Heap.after exData3 exUps [.create ⟨[(0, 1), (1, 1), (2, 1), (3, 1), (4, 2)]⟩,
      .flip 0 ⟨[(1, 2), (2, 2)]⟩]).frame 1 = .ok false := by
  constructor <;> decide +kernel

/-- **C23, contiguous parent**: the child of a plan with a disconnected district {0, 3} that the flip does not touch is called
contiguous. -/
theorem C23_parent_needed :
    contiguous natOrd (Heap.after exData3 exUps [.create ⟨[(0, 1), (1, 2), (2, 3), (3, 1), (4, 2)]⟩,
      .flip 0 ⟨[(4, 3)]⟩]).frame 1 = .ok true ∧
    contiguous natOrd (Heap.after exData3 exUps [.create ⟨[(0, 1), (1, 2), (2, 3), (3, 1), (4, 3)]⟩]).frame 0 = .ok false := by
  constructor <;> decide +kernel

/-- **C23, erased parent**: once `parent = None` has been set on a partition made by a flip, `contiguous()` only looks at the
districts that gained nodes: {0, 3} is disconnected, the parent was contiguous, and the answer changes from `False` to
`True`. -/
theorem C23_erased_parent :
    contiguous natOrd (Heap.after exData3 exUps [.create ⟨[(0, 1), (1, 1), (2, 1), (3, 1), (4, 2)]⟩]).frame 0 = .ok true ∧
    contiguous natOrd (Heap.after exData3 exUps [.create ⟨[(0, 1), (1, 1), (2, 1), (3, 1), (4, 2)]⟩,
      .flip 0 ⟨[(1, 2), (2, 2)]⟩]).frame 1 = .ok false ∧
    contiguous natOrd (Heap.after exData3 exUps [.create ⟨[(0, 1), (1, 1), (2, 1), (3, 1), (4, 2)]⟩,
      .flip 0 ⟨[(1, 2), (2, 2)]⟩, .eraseParent 1]).frame 1 = .ok true := by
  refine ⟨?_, ?_, ?_⟩ <;> decide +kernel

/-- **C23 / C24, emptied district**: when a flip empties a district, `contiguous()` raises `NetworkXPointlessConcept` and
`contiguous_bfs()` raises `StopIteration`; neither answers `False`.  `single_flip_contiguous()` answers `False`. -/
theorem C24_emptied_district :
    let F := (Heap.after exData exUps [.create ⟨[(0, 1), (1, 2), (2, 2), (3, 2)]⟩, .flip 0 ⟨[(0, 2)]⟩]).frame
    contiguous natOrd F 1 = .error .pointlessConcept ∧
    contiguousBfs 9 natOrd (fun part => toDictOfLists (exData.graph.subgraph (if part = 2 then {0, 1, 2, 3} else ∅))) F 1 =
      some (.error .stopIteration) ∧
    singleFlipContiguous 20 natOrd (toDictOfLists exData.graph) (fun _ => 0) F 1 = some (.ok false) := by
  refine ⟨?_, ?_, ?_⟩ <;> decide +kernel

example : contiguousComponents (Heap.after exData3 exUps exOps3).frame 2 =
    .ok ⟨[(1, [{1}]), (2, [{0}, {2, 3, 4}])]⟩ := by decide +kernel

example : numberOfContiguousParts (Heap.after exData3 exUps exOps3).frame 3 = .ok 1 ∧
    numberOfContiguousParts (Heap.after exData3 exUps exOps3).frame 0 = .ok 2 := by decide +kernel

/-- **C59 is violated across chains**: `no_more_discontiguous` is one object for the whole process
(constraints/contiguity.py:223).  After a first chain has configured it with a plan of two connected districts, it refuses
the initial plan of a second chain, which has only one. -/
theorem C59_shared_bound_violation :
    let F := (Heap.after exData3 exUps exOps3).frame
    ∃ bound, noMoreDiscontiguous F none 0 = .ok (bound, true) ∧ noMoreDiscontiguous F bound 3 = .ok (bound, false) ∧
      (noMoreDiscontiguous F none 3).map Prod.snd = .ok true := by
  refine ⟨some (39 / 20), ?_, ?_, ?_⟩ <;> decide +kernel

end GC

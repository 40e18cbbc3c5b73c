import Verif.Model.Frozen
import Verif.Props.Recursive

/-!
# What a frozen graph and the view of the subgraphs remember (C92)
-/

set_option linter.unusedSectionVars false
set_option autoImplicit false

namespace GC

variable {V W P S : Type} [LinearOrder V] [DecidableEq P]

/-! ### Caches of methods -/

theorem lruCall_hit {K A : Type} [DecidableEq K] {cap : ℕ} {compute : K → Py A} {k : K} {cache : List (K × A)} {e : K × A}
    (h : cache.find? (fun e => e.1 = k) = some e) : lruCall cap compute k cache = (.ok e.2, e :: cache.filter (fun e => e.1 ≠ k)) := by
  unfold lruCall; rw [h]

theorem lruCall_miss {K A : Type} [DecidableEq K] {cap : ℕ} {compute : K → Py A} {k : K} {cache : List (K × A)}
    (h : cache.find? (fun e => e.1 = k) = none) {a : A} (ha : compute k = .ok a) :
    lruCall cap compute k cache = (.ok a, ((k, a) :: cache).take cap) := by
  unfold lruCall; rw [h]; simp only; rw [ha]

theorem lruCall_raise {K A : Type} [DecidableEq K] {cap : ℕ} {compute : K → Py A} {k : K} {cache : List (K × A)}
    (h : cache.find? (fun e => e.1 = k) = none) {err : PyErr} (ha : compute k = .error err) :
    lruCall cap compute k cache = (.error err, cache) := by
  unfold lruCall; rw [h]; simp only; rw [ha]

theorem lruCall_spec {K A : Type} [DecidableEq K] (cap : ℕ) (compute : K → Py A) (k : K) {cache : List (K × A)} (Q : K → Prop)
    (h : ∀ e ∈ cache, Q e.1 → compute e.1 = .ok e.2) :
    (Q k → (lruCall cap compute k cache).1 = compute k) ∧ ∀ e ∈ (lruCall cap compute k cache).2, Q e.1 → compute e.1 = .ok e.2 := by
  rcases hf : cache.find? (fun e => e.1 = k) with _ | e
  · rcases hc : compute k with err | a
    · rw [lruCall_raise hf hc]
      exact ⟨fun _ => rfl, h⟩
    · rw [lruCall_miss hf hc]
      refine ⟨fun _ => rfl, fun e he hQ => ?_⟩
      rcases List.mem_cons.1 (List.mem_of_mem_take he) with rfl | he
      · exact hc
      · exact h e he hQ
  · have hmem := List.mem_of_find?_eq_some hf
    have hk : e.1 = k := by simpa using List.find?_some hf
    rw [lruCall_hit hf]
    refine ⟨fun hQ => ?_, fun e' he' hQ => ?_⟩
    · rw [← hk] at hQ ⊢
      exact (h e hmem hQ).symm
    · rcases List.mem_cons.1 he' with rfl | he'
      · exact h _ hmem hQ
      · exact h e' (List.mem_of_mem_filter he') hQ

/-- invariant of frozen graphs; `A` are the attributes that have been assigned, `shrunk` says whether the remembered nodes have been changed -/
structure FrozenInv (G : Graph V) (attrs : V → Dict String W) (A : V × String → Prop) (shrunk : Prop) (s : FrozenSt V W) : Prop where
  graph : s.graph = G
  nbrs : ∀ e ∈ s.nbrs, freshNeighbors G e.1 = .ok e.2
  degs : ∀ e ∈ s.degs, freshDegree G e.1 = .ok e.2
  attr : ∀ n f, ¬ A (n, f) → (s.attrs n).get? f = (attrs n).get? f
  look : ∀ e ∈ s.look, ¬ A e.1 → freshLookup G.nodes attrs e.1 = .ok e.2
  indices : ¬ shrunk → ∀ I, s.indices = some I → I = G.nodes

theorem freshLookup_congr {nodes : Finset V} {a b : V → Dict String W} {k : V × String} (h : (a k.1).get? k.2 = (b k.1).get? k.2) :
    freshLookup nodes a k = freshLookup nodes b k := by
  unfold freshLookup Dict.get
  rw [h]

theorem frozenInv_run {G : Graph V} {attrs : V → Dict String W} {A : V × String → Prop} {shrunk : Prop} {s : FrozenSt V W}
    (h : FrozenInv G attrs A shrunk s) (op : FrozenOp V W) (hop : ∀ n f w, op = .assign n f w → A (n, f)) (hs : ∀ X, op = .shrink X → shrunk) :
    FrozenInv G attrs A shrunk (op.run s) := by
  cases op with
  | neighbors n =>
    refine ⟨h.graph, ?_, h.degs, h.attr, h.look, h.indices⟩
    have := (lruCall_spec 16384 (freshNeighbors s.graph) n (cache := s.nbrs) (fun _ => True) (fun e he _ => by rw [h.graph]; exact h.nbrs e he)).2
    intro e he
    rw [← h.graph]
    exact this e he trivial
  | degree n =>
    refine ⟨h.graph, h.nbrs, ?_, h.attr, h.look, h.indices⟩
    have := (lruCall_spec 16384 (freshDegree s.graph) n (cache := s.degs) (fun _ => True) (fun e he _ => by rw [h.graph]; exact h.degs e he)).2
    intro e he
    rw [← h.graph]
    exact this e he trivial
  | lookup n f =>
    refine ⟨h.graph, h.nbrs, h.degs, h.attr, ?_, h.indices⟩
    have hc : ∀ k, ¬ A k → freshLookup s.graph.nodes s.attrs k = freshLookup G.nodes attrs k := fun k hk => by
      rw [h.graph]; exact freshLookup_congr (h.attr k.1 k.2 hk)
    have := (lruCall_spec 65536 (freshLookup s.graph.nodes s.attrs) (n, f) (cache := s.look) (fun k => ¬ A k)
      (fun e he hk => by rw [hc _ hk]; exact h.look e he hk)).2
    intro e he hk
    rw [← hc _ hk]
    exact this e he hk
  | indices =>
    refine ⟨h.graph, h.nbrs, h.degs, h.attr, h.look, fun hns I hI => ?_⟩
    have hI' : s.indices.getD s.graph.nodes = I := Option.some.inj hI
    rcases hi : s.indices with _ | J
    · rw [hi] at hI'; rw [← hI', ← h.graph]; rfl
    · rw [hi] at hI'; rw [← hI']; exact h.indices hns J hi
  | assign n f w =>
    simp only [FrozenOp.run]
    split_ifs with hn
    · refine ⟨h.graph, h.nbrs, h.degs, ?_, h.look, h.indices⟩
      intro n' f' hA
      rw [← h.attr n' f' hA]
      simp only [Function.update_apply]
      split_ifs with hnn
      · subst hnn
        rw [Dict.get?_set_ne]
        rintro rfl
        exact hA (hop _ _ _ rfl)
      · rfl
    · exact h
  | change => exact h
  | shrink X =>
    exact ⟨h.graph, h.nbrs, h.degs, h.attr, h.look, fun hns => absurd (hs X rfl) hns⟩

theorem frozenInv_ops (G : Graph V) (attrs : V → Dict String W) (ops : List (FrozenOp V W)) :
    FrozenInv G attrs (fun k => ∃ w, FrozenOp.assign k.1 k.2 w ∈ ops) (∃ X, FrozenOp.shrink X ∈ ops)
      (ops.foldl (fun s op => op.run s) (FrozenSt.make G attrs)) := by
  have key : ∀ (l : List (FrozenOp V W)) (s : FrozenSt V W), (∀ op ∈ l, op ∈ ops) →
      FrozenInv G attrs (fun k => ∃ w, FrozenOp.assign k.1 k.2 w ∈ ops) (∃ X, FrozenOp.shrink X ∈ ops) s →
      FrozenInv G attrs (fun k => ∃ w, FrozenOp.assign k.1 k.2 w ∈ ops) (∃ X, FrozenOp.shrink X ∈ ops) (l.foldl (fun s op => op.run s) s) := by
    intro l
    induction l with
    | nil => exact fun s _ h => h
    | cons op l ih =>
      intro s hl h
      exact ih _ (fun op' hop' => hl op' (List.mem_cons_of_mem _ hop')) (frozenInv_run h op
        (fun n f w hop => ⟨w, hop ▸ hl op List.mem_cons_self⟩) (fun X hop => ⟨X, hop ▸ hl op List.mem_cons_self⟩))
  exact key ops _ (fun _ h => h) ⟨rfl, by simp [FrozenSt.make], by simp [FrozenSt.make], fun _ _ _ => rfl, by simp [FrozenSt.make], by simp [FrozenSt.make]⟩

/-- **C92**: whatever is done to a frozen graph, `neighbors` and `degree` always return the neighbours and the degree in the graph that was frozen. -/
theorem C92_structure (G : Graph V) (attrs : V → Dict String W) (ops : List (FrozenOp V W)) (n : V) :
    let s := ops.foldl (fun s op => op.run s) (FrozenSt.make G attrs)
    s.graph = G ∧
    (n ∈ G.nodes → (frozenNeighbors n s).1 = .ok (G.neighbors n) ∧ (frozenDegree n s).1 = .ok (G.neighbors n).card) ∧
    (n ∉ G.nodes → (frozenNeighbors n s).1 = .error .networkXError) := by
  intro s
  have h := frozenInv_ops G attrs ops
  have h1 := (lruCall_spec 16384 (freshNeighbors s.graph) n (cache := s.nbrs) (fun _ => True) (fun e he _ => by rw [h.graph]; exact h.nbrs e he)).1 trivial
  have h2 := (lruCall_spec 16384 (freshDegree s.graph) n (cache := s.degs) (fun _ => True) (fun e he _ => by rw [h.graph]; exact h.degs e he)).1 trivial
  have hg : s.graph = G := h.graph
  rw [hg] at h1 h2
  refine ⟨hg, fun hn => ⟨?_, ?_⟩, fun hn => ?_⟩
  · show (lruCall 16384 (freshNeighbors s.graph) n s.nbrs).1 = _
    rw [hg, h1]; unfold freshNeighbors; rw [if_pos hn]
  · show (lruCall 16384 (freshDegree s.graph) n s.degs).1 = _
    rw [hg, h2]; unfold freshDegree; rw [if_pos hn]; rfl
  · show (lruCall 16384 (freshNeighbors s.graph) n s.nbrs).1 = _
    rw [hg, h1]; unfold freshNeighbors; rw [if_neg hn]

/-- **C92**: as long as the user does not assign an attribute, `lookup` returns its value. -/
theorem C92_lookup_partial (G : Graph V) (attrs : V → Dict String W) (ops : List (FrozenOp V W)) (n : V) (f : String)
    (hno : ∀ w, FrozenOp.assign n f w ∉ ops) :
    let s := ops.foldl (fun s op => op.run s) (FrozenSt.make G attrs)
    (s.attrs n).get? f = (attrs n).get? f ∧ (n ∈ G.nodes → (frozenLookup n f s).1 = (s.attrs n).get f) ∧
    (n ∉ G.nodes → (frozenLookup n f s).1 = .error .keyError) := by
  intro s
  have h := frozenInv_ops G attrs ops
  have hA : ¬ ∃ w, FrozenOp.assign (n, f).1 (n, f).2 w ∈ ops := fun ⟨w, hw⟩ => hno w hw
  have hattr : (s.attrs n).get? f = (attrs n).get? f := h.attr n f hA
  have hg : s.graph = G := h.graph
  have h1 := (lruCall_spec 65536 (freshLookup s.graph.nodes s.attrs) (n, f) (cache := s.look) (fun k => ¬ ∃ w, FrozenOp.assign k.1 k.2 w ∈ ops)
    (fun e he hk => by
      rw [hg, freshLookup_congr (h.attr e.1.1 e.1.2 hk)]
      exact h.look e he hk)).1 hA
  refine ⟨hattr, fun hn => ?_, fun hn => ?_⟩
  · show (lruCall 65536 (freshLookup s.graph.nodes s.attrs) (n, f) s.look).1 = _
    rw [h1, hg]; unfold freshLookup; rw [if_pos hn]
  · show (lruCall 65536 (freshLookup s.graph.nodes s.attrs) (n, f) s.look).1 = _
    rw [h1, hg]; unfold freshLookup; rw [if_neg hn]

/-- **C92**, where the code disagrees with the property: `networkx.freeze` does not protect the attributes of the nodes.  Once an attribute has been looked up,
`lookup` keeps returning the old value however often it is assigned. -/
theorem C92_lookup_violation (s : FrozenSt V W) (n : V) (f : String) (v : W) (h : (frozenLookup n f s).1 = .ok v) (ws : List W) :
    (frozenLookup n f (ws.foldl (fun s w => (FrozenOp.assign n f w).run s) (frozenLookup n f s).2)).1 = .ok v := by
  have hcache : ∀ (s : FrozenSt V W) (ws : List W), (ws.foldl (fun s w => (FrozenOp.assign n f w).run s) s).look = s.look := by
    intro s ws
    induction ws generalizing s with
    | nil => rfl
    | cons w ws ih =>
      rw [List.foldl_cons, ih]
      simp only [FrozenOp.run]
      split_ifs <;> rfl
  have hfind : ∃ e, ((frozenLookup n f s).2.look.find? (fun e => e.1 = (n, f))) = some e ∧ e.2 = v := by
    have h' : (lruCall 65536 (freshLookup s.graph.nodes s.attrs) (n, f) s.look).1 = .ok v := h
    show ∃ e, (lruCall 65536 (freshLookup s.graph.nodes s.attrs) (n, f) s.look).2.find? (fun e => e.1 = (n, f)) = some e ∧ e.2 = v
    rcases hf : s.look.find? (fun e => e.1 = (n, f)) with _ | e
    · rcases hc : freshLookup s.graph.nodes s.attrs (n, f) with err | a
      · rw [lruCall_raise hf hc] at h'; simp at h'
      · rw [lruCall_miss hf hc] at h' ⊢
        refine ⟨((n, f), a), ?_, Except.ok.inj h'⟩
        show (((n, f), a) :: s.look.take 65535).find? _ = _
        rw [List.find?_cons]
        simp
    · rw [lruCall_hit hf] at h' ⊢
      have hk : e.1 = (n, f) := by simpa using List.find?_some hf
      refine ⟨e, ?_, Except.ok.inj h'⟩
      rw [List.find?_cons]
      simp [hk]
  obtain ⟨e, he, hv⟩ := hfind
  rw [← hcache _ ws] at he
  show (lruCall 65536 _ (n, f) (ws.foldl (fun s w => (FrozenOp.assign n f w).run s) (frozenLookup n f s).2).look).1 = _
  rw [lruCall_hit he, hv]

/-- **C92**: as long as nobody changes the set that `node_indices` returns, it is the set of nodes. -/
theorem C92_indices_partial (G : Graph V) (attrs : V → Dict String W) (ops : List (FrozenOp V W)) (hno : ∀ X, FrozenOp.shrink X ∉ ops) :
    (frozenIndices (ops.foldl (fun s op => op.run s) (FrozenSt.make G attrs))).1 = .ok G.nodes := by
  have h := frozenInv_ops G attrs ops
  unfold frozenIndices
  dsimp only
  have hns : ¬ ∃ X, FrozenOp.shrink X ∈ ops := fun ⟨X, hX⟩ => hno X hX
  rcases hi : (ops.foldl (fun s op => op.run s) (FrozenSt.make G attrs)).indices with _ | J
  · rw [hi, Option.getD_none, h.graph]
  · rw [hi, Option.getD_some, h.indices hns J hi]

/-- the nodes removed from the remembered set by a history -/
def shrunkBy : List (FrozenOp V W) → Finset V
  | [] => ∅
  | .shrink X :: ops => X ∪ shrunkBy ops
  | _ :: ops => shrunkBy ops

theorem indices_after (ops : List (FrozenOp V W)) (s : FrozenSt V W) :
    (ops.foldl (fun s op => op.run s) s).indices.getD (ops.foldl (fun s op => op.run s) s).graph.nodes =
      s.indices.getD s.graph.nodes \ shrunkBy ops := by
  induction ops generalizing s with
  | nil => simp [shrunkBy]
  | cons op ops ih =>
    rw [List.foldl_cons, ih]
    cases op with
    | shrink X =>
      simp only [FrozenOp.run, shrunkBy, Option.getD_some]
      rw [sdiff_sdiff_left]
      rfl
    | neighbors n => rfl
    | degree n => rfl
    | lookup n f => rfl
    | indices => rfl
    | assign n f w => simp only [FrozenOp.run, shrunkBy]; split <;> rfl
    | change => rfl

/-- **C92 (violation)**: `node_indices` of a frozen graph lacks exactly the nodes that somebody has removed from the set it returned
before, for good. -/
theorem C92_indices_violation (G : Graph V) (attrs : V → Dict String W) (ops : List (FrozenOp V W)) :
    (frozenIndices (ops.foldl (fun s op => op.run s) (FrozenSt.make G attrs))).1 = .ok (G.nodes \ shrunkBy ops) := by
  unfold frozenIndices
  exact congrArg Except.ok (indices_after ops (FrozenSt.make G attrs))

/-- one node removed, and it stays removed -/
example : shrunkBy ([.indices, .shrink {1}, .neighbors 0, .indices] : List (FrozenOp ℕ ℕ)) = {1} := by decide

/-! ### Districts from a frozen graph -/

theorem assignPart_get? {pop : V → ℚ} {target eps : ℚ} {flips f : Dict V P} {nodes : Finset V} {part : P} {x : ℚ}
    (h : assignPart pop target eps flips nodes part = .ok (f, x)) (v : V) : f.get? v = if v ∈ nodes then some part else flips.get? v := by
  unfold assignPart at h
  dsimp only at h
  split_ifs at h with hc
  have := (assign_fold pop part (iter nodes) (flips, (0 : ℚ))).2 v
  rw [Except.ok.inj h] at this
  simpa only [mem_iter] using this

/-- one round, on a frozen graph and on a graph -/
theorem lastTwoFrozen_ok {method : Method V S} {G : Graph V} {pop : V → ℚ} {target eps : ℚ} {p q : P} {flips f : Dict V P} {I I' : Finset V} {w w' : S}
    (h : lastTwoFrozen method G pop target eps p q flips (I, w) = (.ok f, (I', w'))) :
    lastTwo method G pop target eps p q flips I w = (.ok f, w') ∧ I' ⊆ I ∧ (∀ v ∈ I', f.get? v = some q) ∧
      (∀ v ∈ I \ I', f.get? v = some p) ∧ ∀ v, v ∉ I → f.get? v = some p ∨ f.get? v = flips.get? v := by
  unfold lastTwoFrozen at h
  unfold lastTwo
  simp only [bind, M.bind, M.read, M.lift, M.modify, beside, pure, M.pure] at h ⊢
  rcases hm : method (G.subgraph I) target eps false w with ⟨_ | r, w2⟩
  · rw [hm] at h; simp at h
  rw [hm] at h
  simp only at h ⊢
  rcases hn : notNone r with _ | nodes
  · rw [hn] at h; simp at h
  rw [hn] at h
  simp only at h ⊢
  rcases ha : assignPart pop target eps flips nodes p with _ | ⟨f1, x1⟩
  · rw [ha] at h; simp at h
  rw [ha] at h
  simp only at h ⊢
  rcases hb : assignPart pop target eps f1 (I \ nodes) q with _ | ⟨f2, x2⟩
  · rw [hb] at h; simp at h
  rw [hb] at h
  simp only [Prod.mk.injEq, Except.ok.injEq] at h ⊢
  obtain ⟨rfl, rfl, rfl⟩ := h
  refine ⟨⟨rfl, rfl⟩, Finset.sdiff_subset, fun v hv => ?_, fun v hv => ?_, fun v hv => ?_⟩
  · rw [assignPart_get? hb, if_pos hv]
  · rw [assignPart_get? hb, if_neg (Finset.mem_sdiff.1 hv).2, assignPart_get? ha, if_pos]
    by_contra hc
    exact (Finset.mem_sdiff.1 hv).2 (Finset.mem_sdiff.2 ⟨(Finset.mem_sdiff.1 hv).1, hc⟩)
  · rw [assignPart_get? hb, if_neg (fun h => hv (Finset.mem_sdiff.1 h).1), assignPart_get? ha]
    split_ifs
    · exact .inl rfl
    · exact .inr rfl

/-- the loop of `recursive_tree_part` on a frozen graph: the same districts as on a graph, but the remembered nodes are those of the last district -/
theorem recursiveLoopFrozen_ok {method : Method V S} {G : Graph V} {pop : V → ℚ} {target eps : ℚ} :
    ∀ (parts : List P) (flips f : Dict V P) (debt : ℚ) (I I' : Finset V) (w w' : S),
      recursiveLoopFrozen method G pop target eps parts flips debt (I, w) = (.ok f, (I', w')) →
      recursiveLoop method G pop target eps parts flips I debt w = (.ok f, w') ∧ I' ⊆ I ∧ (∀ v ∈ I', ∃ q, parts.getLast? = some q ∧ f.get? v = some q) ∧
        (∀ v ∈ I \ I', ∃ p ∈ parts.dropLast, f.get? v = some p) ∧ ∀ v, v ∉ I → (∃ p ∈ parts.dropLast, f.get? v = some p) ∨ f.get? v = flips.get? v := by
  intro parts
  induction parts with
  | nil => intro flips f debt I I' w w' h; cases h
  | cons p rest ih =>
    intro flips f debt I I' w w' h
    match rest, ih, h with
    | [], _, h => cases h
    | [q], _, h =>
      obtain ⟨h1, h2, h3, h4, h5⟩ := lastTwoFrozen_ok h
      exact ⟨h1, h2, fun v hv => ⟨q, rfl, h3 v hv⟩, fun v hv => ⟨p, by simp, h4 v hv⟩, fun v hv => (h5 v hv).imp (fun h => ⟨p, by simp, h⟩) id⟩
    | q :: r :: rest, ih, h =>
      unfold recursiveLoopFrozen at h
      unfold recursiveLoop
      simp only [bind, M.bind, M.read, M.lift, M.modify, beside] at h ⊢
      rcases hd : debtTarget target eps debt with _ | ⟨t', e'⟩
      · rw [hd] at h; simp at h
      rw [hd] at h
      simp only at h ⊢
      rcases hm : method (G.subgraph I) t' e' true w with ⟨_ | x, w2⟩
      · rw [hm] at h; simp at h
      rw [hm] at h
      simp only at h ⊢
      rcases hn : notNone x with _ | nodes
      · rw [hn] at h; simp at h
      rw [hn] at h
      simp only at h ⊢
      rcases ha : assignPart pop target eps flips nodes p with _ | ⟨f1, x1⟩
      · rw [ha] at h; simp at h
      rw [ha] at h
      simp only at h ⊢
      obtain ⟨h1, h2, h3, h4, h5⟩ := ih f1 f _ _ I' w2 w' h
      have hmem : ∀ a ∈ (q :: r :: rest).dropLast, a ∈ (p :: q :: r :: rest).dropLast := fun a ha => by
        rw [List.dropLast_cons_of_ne_nil (by simp)]; exact List.mem_cons_of_mem _ ha
      have hp : p ∈ (p :: q :: r :: rest).dropLast := by rw [List.dropLast_cons_of_ne_nil (by simp)]; exact List.mem_cons_self
      refine ⟨h1, h2.trans Finset.sdiff_subset, fun v hv => ?_, fun v hv => ?_, fun v hv => ?_⟩
      · obtain ⟨a, e1, e2⟩ := h3 v hv
        exact ⟨a, by rw [List.getLast?_cons_cons]; exact e1, e2⟩
      · by_cases hv' : v ∈ nodes
        · rcases h5 v (fun h => (Finset.mem_sdiff.1 h).2 hv') with ⟨a, e1, e2⟩ | e
          · exact ⟨a, hmem a e1, e2⟩
          · rw [assignPart_get? ha, if_pos hv'] at e
            exact ⟨p, hp, e⟩
        · obtain ⟨a, e1, e2⟩ := h4 v (Finset.mem_sdiff.2 ⟨Finset.mem_sdiff.2 ⟨(Finset.mem_sdiff.1 hv).1, hv'⟩, (Finset.mem_sdiff.1 hv).2⟩)
          exact ⟨a, hmem a e1, e2⟩
      · rcases h5 v (fun h => hv (Finset.mem_sdiff.1 h).1) with ⟨a, e1, e2⟩ | e
        · exact .inl ⟨a, hmem a e1, e2⟩
        · rw [assignPart_get? ha] at e
          split_ifs at e with hv'
          · exact .inl ⟨p, hp, e⟩
          · exact .inr e

/-- **C92**, where the code disagrees with the property: `recursive_tree_part` works with the very set that a frozen graph remembers as its `node_indices`, and removes
every district but the last from it.  Whenever it returns, the districts are those that it would have made of a graph, but from then on the frozen graph
claims to have only the nodes of the last district. -/
theorem C92_tree_part_violation (method : Method V S) (G : Graph V) (pop : V → ℚ) (target eps : ℚ) (parts : List P) (hnd : parts.Nodup) (w w' : S)
    (f : Dict V P) (I' : Finset V) (h : recursiveTreePartFrozen method G parts pop target eps (G.nodes, w) = (.ok f, (I', w'))) :
    recursiveTreePart method G parts pop target eps w = (.ok f, w') ∧
    ∃ q, parts.getLast? = some q ∧ ∀ v ∈ G.nodes, v ∈ I' ↔ f.get? v = some q := by
  obtain ⟨h1, h2, h3, h4, -⟩ := recursiveLoopFrozen_ok parts _ f 0 _ I' w w' h
  refine ⟨h1, ?_⟩
  rcases hq : parts.getLast? with _ | q
  · obtain rfl := List.getLast?_eq_none_iff.1 hq
    cases h
  refine ⟨q, rfl, fun v hv => ⟨fun hI => ?_, fun hf => ?_⟩⟩
  · obtain ⟨q', e1, e2⟩ := h3 v hI
    rw [hq] at e1
    obtain rfl := Option.some.inj e1
    exact e2
  · by_contra hI
    obtain ⟨p, e1, e2⟩ := h4 v (Finset.mem_sdiff.2 ⟨hv, hI⟩)
    rw [hf] at e2
    obtain rfl := Option.some.inj e2
    obtain ⟨ys, rfl⟩ := List.getLast?_eq_some_iff.1 hq
    rw [List.dropLast_concat] at e1
    exact (List.nodup_append.1 hnd).2.2 q e1 q (by simp) rfl

/-- **C92**, where the code disagrees with the property: `from_random_assignment` never makes a partition of a frozen graph, that is of the `graph` of another
partition, if the ideal population is positive: even if the districts are found, it raises `KeyError`.  -/
theorem C92_random_violation (method : Method V S) (G : Graph V) (hG : G.WF) {I : Finset V → Prop} (hsub : MethodSubI I G method) (hI : I G.nodes)
    (pop : V → ℚ) (n : ℕ) (eps : ℚ) (hpos : 0 < (∑ v ∈ G.nodes, pop v) / (n : ℚ) * (1 - eps)) (w : S) :
    (∃ e, (fromRandomFrozen method G pop n eps (G.nodes, w)).1 = .error e) ∧
    ∀ f s, recursiveTreePartFrozen method G (List.range n) pop ((∑ v ∈ G.nodes, pop v) / (n : ℚ)) eps (G.nodes, w) = (.ok f, s) →
      fromRandomFrozen method G pop n eps (G.nodes, w) = (.error .keyError, s) := by
  have hn : n ≠ 0 := by
    rintro rfl
    simp at hpos
  have key : ∀ f s, recursiveTreePartFrozen method G (List.range n) pop ((∑ v ∈ G.nodes, pop v) / (n : ℚ)) eps (G.nodes, w) = (.ok f, s) →
      fromRandomFrozen method G pop n eps (G.nodes, w) = (.error .keyError, s) := by
    rintro f ⟨I', w'⟩ h
    obtain ⟨h1, q, hq, hlast⟩ := C92_tree_part_violation method G pop _ eps _ List.nodup_range w w' f I' h
    obtain ⟨hlen, hcov, hout, hpop⟩ := recursive_tree_part_spec method G hsub hI hG pop _ eps _ w w' f h1
    rw [List.length_range] at hlen
    have h0 : (0 : ℕ) ∈ List.range n := List.mem_range.2 (by omega)
    obtain ⟨D, hD, hD1, -, -⟩ := hpop List.nodup_range 0 h0
    have hDne : D.Nonempty := by
      rw [Finset.nonempty_iff_ne_empty]
      rintro rfl
      rw [Finset.sum_empty] at hD1
      exact absurd hD1 (not_le.2 hpos)
    obtain ⟨v, hv⟩ := hDne
    have hfv := (hD v).1 hv
    have hvG : v ∈ G.nodes := (hcov v).2 ⟨0, h0, hfv⟩
    have hne : f.keys.toFinset ≠ I' := by
      intro heq
      have : v ∈ I' := by
        rw [← heq, List.mem_toFinset]
        exact Dict.mem_keys_iff.2 ⟨0, hfv⟩
      have := (hlast v hvG).1 this
      rw [hfv] at this
      obtain rfl := Option.some.inj this
      rw [List.getLast?_range] at hq
      split_ifs at hq with hc
      have := Option.some.inj hq
      omega
    unfold fromRandomFrozen
    simp only [bind, M.bind, M.read, M.lift, if_neg hn]
    rw [h]
    simp only [if_pos hne]
    rfl
  refine ⟨?_, key⟩
  rcases h : recursiveTreePartFrozen method G (List.range n) pop ((∑ v ∈ G.nodes, pop v) / (n : ℚ)) eps (G.nodes, w) with ⟨e | f, s⟩
  · refine ⟨e, ?_⟩
    unfold fromRandomFrozen
    simp only [bind, M.bind, M.read, M.lift, if_neg hn]
    rw [h]
  · exact ⟨_, by rw [key f s h]⟩

/-! ### Subgraphs -/

/-- **C92**: whatever subgraphs have been asked for before, `partition.subgraphs[part]` is the subgraph of the nodes of the part, and `KeyError` for what is not
a part. -/
theorem C92_subgraphs (G : Graph V) (parts : Dict P (Finset V)) (asked : List P) (part : P) :
    let cache := asked.foldl (fun c p => (subgraphItem G parts p c).2) Dict.empty
    (∀ s, parts.get? part = some s → (subgraphItem G parts part cache).1 = .ok (G.subgraph s)) ∧
    (part ∉ parts.keys → (subgraphItem G parts part cache).1 = .error .keyError) := by
  intro cache
  have hstep : ∀ (c : Dict P (Graph V)) (p : P), (∀ k H, c.get? k = some H → ∃ s, parts.get? k = some s ∧ H = G.subgraph s) →
      ∀ k H, (subgraphItem G parts p c).2.get? k = some H → ∃ s, parts.get? k = some s ∧ H = G.subgraph s := by
    intro c p hc k H hk
    unfold subgraphItem at hk
    rcases hp : c.get? p with _ | H'
    · rw [hp] at hk
      simp only at hk
      rcases hs : parts.get p with e | s
      · rw [hs] at hk
        exact hc k H hk
      · rw [hs] at hk
        simp only [Dict.get?_set] at hk
        split_ifs at hk with hkp
        · subst hkp
          exact ⟨s, Dict.get_eq_ok_iff.1 hs, (Option.some.inj hk).symm⟩
        · exact hc k H hk
    · rw [hp] at hk
      exact hc k H hk
  have hinv : ∀ k H, cache.get? k = some H → ∃ s, parts.get? k = some s ∧ H = G.subgraph s := by
    have : ∀ (l : List P) (c : Dict P (Graph V)), (∀ k H, c.get? k = some H → ∃ s, parts.get? k = some s ∧ H = G.subgraph s) →
        ∀ k H, (l.foldl (fun c p => (subgraphItem G parts p c).2) c).get? k = some H → ∃ s, parts.get? k = some s ∧ H = G.subgraph s := by
      intro l
      induction l with
      | nil => exact fun c h => h
      | cons p l ih => exact fun c h => ih _ (hstep c p h)
    exact this asked Dict.empty (by simp)
  unfold subgraphItem
  rcases hc : cache.get? part with _ | H
  · refine ⟨fun s hs => ?_, fun hn => ?_⟩
    · simp only [Dict.get_eq_ok_iff.2 hs]
    · simp only [Dict.get_eq_error_iff.2 ⟨Dict.get?_eq_none_iff.2 hn, rfl⟩]
  · obtain ⟨s0, h1, h2⟩ := hinv part H hc
    refine ⟨fun s hs => ?_, fun hn => ?_⟩
    · rw [hs] at h1
      obtain rfl := Option.some.inj h1
      simp only [h2]
    · rw [Dict.get?_eq_none_iff.2 hn] at h1
      cases h1

/-- **C92**: `partition.subgraphs.items()` yields every part once, with the subgraph of its nodes. -/
theorem C92_subgraph_items (G : Graph V) (parts : Dict P (Finset V)) (hwf : parts.WF) (asked : List P) :
    (subgraphItems G parts (asked.foldl (fun c p => (subgraphItem G parts p c).2) Dict.empty)).1 =
      .ok (parts.entries.map (fun e => (e.1, G.subgraph e.2))) := by
  have key : ∀ (l : List (P × Finset V)) (asked : List P), (∀ e ∈ l, parts.get? e.1 = some e.2) →
      (subgraphList G parts (l.map (·.1)) (asked.foldl (fun c p => (subgraphItem G parts p c).2) Dict.empty)).1 =
      .ok (l.map (fun e => (e.1, G.subgraph e.2))) := by
    intro l
    induction l with
    | nil => intro asked _; rfl
    | cons e l ih =>
      intro asked hl
      have h1 := (C92_subgraphs G parts asked e.1).1 e.2 (hl e List.mem_cons_self)
      have h2 := ih (asked ++ [e.1]) (fun e' he' => hl e' (List.mem_cons_of_mem _ he'))
      rw [List.foldl_append] at h2
      simp only [List.foldl_cons, List.foldl_nil] at h2
      generalize asked.foldl (fun c p => (subgraphItem G parts p c).2) Dict.empty = c at h1 h2 ⊢
      rw [List.map_cons, subgraphList]
      simp only [bind, M.bind, pure, M.pure]
      rcases hs : subgraphItem G parts e.1 c with ⟨r, c'⟩
      rw [hs] at h1 h2
      simp only at h1 h2
      subst h1
      simp only
      rcases hr : subgraphList G parts (l.map (·.1)) c' with ⟨r', c''⟩
      rw [hr] at h2
      simp only at h2
      subst h2
      rw [hr]
      rfl
  exact key parts.entries asked (fun e he => Dict.get?_of_mem_entries hwf he)

/-! ### Examples -/

theorem frozenLookup_first {s : FrozenSt V W} {n : V} {f : String} {v : W} (hs : s.look = []) (hn : n ∈ s.graph.nodes)
    (hv : (s.attrs n).get? f = some v) : (frozenLookup n f s).1 = .ok v := by
  have hm : freshLookup s.graph.nodes s.attrs (n, f) = .ok v := by
    unfold freshLookup
    rw [if_pos hn]
    exact Dict.get_eq_ok_iff.2 hv
  have hl : s.look.find? (fun e => e.1 = (n, f)) = none := by rw [hs]; rfl
  exact congrArg Prod.fst (lruCall_miss (cap := 65536) hl hm)

/-- the population of node 0 is looked up, then corrected from 10 to 12: `lookup` still returns 10 -/
example :
    let s : FrozenSt ℕ ℕ := FrozenSt.make exLine (fun _ => ⟨[("pop", 10)]⟩)
    (frozenLookup 0 "pop" s).1 = .ok 10 ∧
    ((FrozenOp.assign 0 "pop" 12).run (frozenLookup 0 "pop" s).2).attrs 0 = ⟨[("pop", 12)]⟩ ∧
    (frozenLookup 0 "pop" ((FrozenOp.assign 0 "pop" 12).run (frozenLookup 0 "pop" s).2)).1 = .ok 10 := by
  intro s
  have h1 : (frozenLookup 0 "pop" s).1 = .ok 10 := frozenLookup_first rfl (by decide +kernel) rfl
  exact ⟨h1, rfl, C92_lookup_violation s 0 "pop" 10 h1 [12]⟩

/-- without the first `lookup` the new value is returned -/
example : (frozenLookup 0 "pop" ((FrozenOp.assign 0 "pop" 12).run (FrozenSt.make exLine (fun _ => ⟨[("pop", 10)]⟩)))).1 = .ok 12 :=
  frozenLookup_first rfl (by decide +kernel) rfl

/-- a history without an assignment of `pop` to node 0 and without changes of the remembered nodes, as in `C92_lookup_partial` and `C92_indices_partial` -/
example : (∀ w, FrozenOp.assign 0 "pop" w ∉ ([.lookup 0 "pop", .assign 1 "pop" 3, .neighbors 2, .indices, .change] : List (FrozenOp ℕ ℕ))) ∧
    ∀ X, FrozenOp.shrink X ∉ ([.lookup 0 "pop", .assign 1 "pop" 3, .neighbors 2, .indices, .change] : List (FrozenOp ℕ ℕ)) := by
  constructor <;> intro x <;> simp

/-- three districts of the path with six nodes: the frozen graph is left with the two nodes of the last one -/
example : (recursiveTreePartFrozen thresholdMethod exLine ["a", "b", "c"] (fun _ => 1) 2 0 (exLine.nodes, [])).1.map Dict.entries =
      .ok [(0, "a"), (1, "a"), (2, "b"), (3, "b"), (4, "c"), (5, "c")] ∧
    (recursiveTreePartFrozen thresholdMethod exLine ["a", "b", "c"] (fun _ => 1) 2 0 (exLine.nodes, [])).2.1 = {4, 5} := by
  constructor <;> decide +kernel

/-- the hypotheses of `C92_random_violation` hold for this path -/
example : ∃ e, (fromRandomFrozen thresholdMethod exLine (fun _ => 1) 3 0 (exLine.nodes, [])).1 = .error e :=
  (C92_random_violation thresholdMethod exLine ⟨by decide, by decide, by decide⟩ (MethodSub.toI (by
    intro H t e o w A w' h
    cases h
    exact Finset.filter_subset _ _) exLine) trivial (fun _ => 1) 3 0 (by decide +kernel) []).1

example : (fromRandomFrozen thresholdMethod exLine (fun _ => 1) 3 0 (exLine.nodes, [])).1.map Dict.entries = .error .keyError := by decide +kernel

/-- two parts of the path, asked for twice -/
example :
    let parts : Dict ℕ (Finset ℕ) := ⟨[(1, {0, 1}), (2, {2, 3, 4, 5})]⟩
    (subgraphItem exLine parts 1 (subgraphItem exLine parts 1 Dict.empty).2).1 = .ok ⟨{0, 1}, {(0, 1)}⟩ := by
  intro parts
  have := (C92_subgraphs exLine parts [1] 1).1 {0, 1} rfl
  exact this.trans (congrArg Except.ok (by
    have h1 : (exLine.subgraph {0, 1}).nodes = {0, 1} := by decide +kernel
    have h2 : (exLine.subgraph {0, 1}).edges = {(0, 1)} := by decide +kernel
    cases h : exLine.subgraph {0, 1}
    rw [h] at h1 h2
    simp only at h1 h2
    rw [h1, h2]))

end GC

import Verif.Lemmas.Contiguity
import Verif.Props.Updaters

/-!
# C23 – C26, C59: contiguity
-/

set_option linter.unusedSectionVars false
set_option autoImplicit false

namespace GC

variable {V P : Type} [LinearOrder V] [DecidableEq P]

/-! ### C26 -/

/-- **C26.** `are_reachable(G, source, avoid, targets)` returns (the search visits each adjacency list at most once), and the
answer is `True` exactly when every target can be reached from the source along edges that pass the `avoid` test; whatever
the order of the adjacency lists. -/
theorem C26_are_reachable {G : Graph V} (hG : G.WF) {adj : Dict V (List V)} (ha : AdjDict G adj) {source : V}
    (hs : source ∈ G.nodes) (avoid : V → V → Bool) (targets : List V) {fuel : ℕ}
    (hf : 1 + (∑ v ∈ G.nodes, ((adj.get? v).getD []).length) ≤ fuel) :
    ∃ b, areReachable fuel adj source avoid targets = some (.ok b) ∧
      (b = true ↔ ∀ t ∈ targets, Relation.ReflTransGen (fun a b => G.Adj a b ∧ avoid a b = false) source t) :=
  areReachable_spec hG ha hs avoid targets hf

example : areReachable 9 (toDictOfLists exData.graph) 0 (fun a b => a = 2 && b = 3) [1, 2] = some (.ok true) ∧
    areReachable 9 (toDictOfLists exData.graph) 0 (fun a b => a = 2 && b = 3) [1, 3] = some (.ok false) := by decide +kernel

/-! ### the affected districts -/

theorem pyAll_true {α : Type} {f : α → Py Bool} {l : List α} : pyAll f l = .ok true ↔ ∀ x ∈ l, f x = .ok true := by
  induction l with
  | nil => simp [pyAll]
  | cons x l ih =>
    unfold pyAll
    rcases hx : f x with e | b
    · simp [bind, Except.bind, hx]
    · cases b
      · simp [bind, Except.bind, hx]
      · simp [bind, Except.bind, hx, ih]

theorem pyAll_ok {α : Type} {f : α → Py Bool} {l : List α} (h : ∀ x ∈ l, ∃ b, f x = .ok b) : ∃ b, pyAll f l = .ok b := by
  induction l with
  | nil => exact ⟨true, rfl⟩
  | cons x l ih =>
    unfold pyAll
    obtain ⟨b, hb⟩ := h x List.mem_cons_self
    rw [hb]
    cases b
    · exact ⟨false, rfl⟩
    · exact ih (fun y hy => h y (List.mem_cons_of_mem _ hy))

/-- The districts that `affected_parts` returns for a child of `w`. -/
def Affected (w : Assignment V P) (flips : Dict V P) (part : P) : Prop :=
  ∃ n p, flips.get? n = some p ∧ (part = p ∨ w.mapping.get? n = some part)

theorem affected_fold {w : Assignment V P} (l : List (V × P)) (h : ∀ e ∈ l, ∃ q, w.mapping.get? e.1 = some q) (s : Finset P) :
    ∃ s', l.foldlM (fun (s : Finset P) e => (do
          let old ← w.mapping.get e.1
          return insert old (insert e.2 s) : Py (Finset P))) s = .ok s' ∧
      ∀ x, x ∈ s' ↔ x ∈ s ∨ ∃ e ∈ l, x = e.2 ∨ w.mapping.get? e.1 = some x := by
  induction l generalizing s with
  | nil => exact ⟨s, rfl, by simp⟩
  | cons e l ih =>
    obtain ⟨q, hq⟩ := h e List.mem_cons_self
    obtain ⟨s', h1, h2⟩ := ih (fun e he => h e (List.mem_cons_of_mem _ he)) (insert q (insert e.2 s))
    refine ⟨s', ?_, ?_⟩
    · rw [List.foldlM_cons]
      have : w.mapping.get e.1 = .ok q := Dict.get_eq_ok_iff.2 hq
      rw [this]
      exact h1
    · intro x
      rw [h2]
      simp only [Finset.mem_insert, List.exists_mem_cons_iff, hq, Option.some.injEq]
      constructor
      · rintro ((h | h | h) | h)
        · exact Or.inr (Or.inl (Or.inr h.symm))
        · exact Or.inr (Or.inl (Or.inl h))
        · exact Or.inl h
        · exact Or.inr (Or.inr h)
      · rintro (h | (h | h) | h)
        · exact Or.inl (Or.inr (Or.inr h))
        · exact Or.inl (Or.inr (Or.inl h))
        · exact Or.inl (Or.inl h.symm)
        · exact Or.inr h

theorem affectedParts_child {F : Frame V P} (hF : FrameInv F) (ord : SetOrder P) {p q : ℕ} {v w : View V P}
    (hv : F.view p = some v) (hp : v.parent = some q) (hw : F.view q = some w) :
    ∃ flips l, v.flips = some flips ∧ FlipSpec w.assignment flips v.assignment ∧ affectedParts ord F v = .ok l ∧
      ∀ x, x ∈ l ↔ Affected w.assignment flips x := by
  obtain ⟨w', -, hw', flips, flows, h1, -, hfw, h3, -⟩ := hF.link p v q hv hp
  rw [hw] at hw'
  cases hw'
  obtain ⟨s', h4, h5⟩ := affected_fold (w := w.assignment) flips.entries
    (fun e he => h3.known e.1 e.2 (Dict.get?_of_mem_entries hfw he)) ∅
  refine ⟨flips, ord.list s', h1, h3, ?_, ?_⟩
  · unfold affectedParts
    rw [h1]
    simp only
    rw [hp]
    simp only
    rw [hw]
    simp only
    rw [h4]
    rfl
  · intro x
    rw [ord.mem, h5]
    simp only [Finset.notMem_empty, false_or]
    constructor
    · rintro ⟨e, he, h⟩
      exact ⟨e.1, e.2, Dict.get?_of_mem_entries hfw he, h⟩
    · rintro ⟨n, p, hn, h⟩
      exact ⟨(n, p), Dict.mem_entries_of_get? hn, h⟩

/-- The nodes of a district are graph nodes. -/
theorem district_subset {F : Frame V P} (hF : FrameInv F) {p : ℕ} {v : View V P} (hv : F.view p = some v) {part : P}
    {s : Finset V} (hs : v.assignment.parts.get? part = some s) : s ⊆ F.data.graph.nodes := by
  intro x hx
  rw [← hF.covers p v hv x, Dict.mem_keys_iff]
  exact ⟨part, ((hF.coherent p v hv).agree part s hs x).1 hx⟩

/-- An unaffected district of a child is a district of the parent. -/
theorem unaffected_same {F : Frame V P} (hF : FrameInv F) {p q : ℕ} {v w : View V P} (hv : F.view p = some v)
    (hw : F.view q = some w) {flips : Dict V P} (hs : FlipSpec w.assignment flips v.assignment) {part : P} {s : Finset V}
    (hps : v.assignment.parts.get? part = some s) (hna : ¬ Affected w.assignment flips part) :
    w.assignment.parts.get? part = some s := by
  have hk : part ∈ w.assignment.parts.keys := by
    rw [← hs.keys, Dict.mem_keys_iff]; exact ⟨s, hps⟩
  obtain ⟨t, ht⟩ := Dict.mem_keys_iff.1 hk
  rw [ht]
  congr 1
  ext x
  rw [(hF.coherent q w hw).agree part t ht, (hF.coherent p v hv).agree part s hps, hs.get?]
  rcases hx : flips.get? x with _ | r
  · simp
  · simp only [Option.some_or, Option.some.injEq]
    constructor
    · intro h; exact absurd ⟨x, r, hx, Or.inr h⟩ hna
    · rintro rfl; exact absurd ⟨x, r, hx, Or.inl rfl⟩ hna

theorem check_part {F : Frame V P} (hF : FrameInv F) {p : ℕ} {v : View V P} (hv : F.view p = some v) {part : P}
    {s : Finset V} (hs : v.assignment.parts.get? part = some s) :
    ((do let g ← subgraphOf F.data.graph v.assignment part
         nxIsConnected g : Py Bool) = .ok true ↔ ConnectedOn F.data.graph s) ∧
    (s.Nonempty → ∃ b, (do let g ← subgraphOf F.data.graph v.assignment part
                           nxIsConnected g : Py Bool) = .ok b) ∧
    (s = ∅ → (do let g ← subgraphOf F.data.graph v.assignment part
                 nxIsConnected g : Py Bool) = .error .pointlessConcept) := by
  have hget : v.assignment.parts.get part = .ok s := Dict.get_eq_ok_iff.2 hs
  have hsub : (do let g ← subgraphOf F.data.graph v.assignment part
                  nxIsConnected g : Py Bool) = nxIsConnected (F.data.graph.subgraph s) := by
    unfold subgraphOf
    rw [hget]
    rfl
  have hn := district_subset hF hv hs
  have hnodes : (F.data.graph.subgraph s).nodes = s := Finset.inter_eq_right.2 hn
  rw [hsub]
  refine ⟨?_, ?_, ?_⟩
  · rw [nxIsConnected_true (hF.graph.subgraph s), connectedOn_subgraph hn]
  · intro h
    obtain ⟨b, hb, -⟩ := nxIsConnected_spec (hF.graph.subgraph s) (by rw [hnodes]; exact h)
    exact ⟨b, hb⟩
  · intro h
    exact nxIsConnected_empty (by rw [hnodes]; exact h)

theorem contiguous_initial {F : Frame V P} (hF : FrameInv F) (ord : SetOrder P) {p : ℕ} {v : View V P}
    (hv : F.view p = some v) (hfl : v.flips = none) :
    (contiguous ord F p = .ok true ↔ ContiguousPlan F.data.graph v.assignment) ∧
    (NonemptyPlan v.assignment → ∃ b, contiguous ord F p = .ok b) := by
  unfold contiguous affectedParts
  rw [hv]
  simp only [hfl, bind, Except.bind]
  constructor
  · rw [pyAll_true]
    constructor
    · intro h part s hs
      exact (check_part hF hv hs).1.1 (h part (Dict.mem_keys_iff.2 ⟨s, hs⟩))
    · intro h part hp
      obtain ⟨s, hs⟩ := Dict.mem_keys_iff.1 hp
      exact (check_part hF hv hs).1.2 (h part s hs)
  · intro hne
    refine pyAll_ok (fun part hp => ?_)
    obtain ⟨s, hs⟩ := Dict.mem_keys_iff.1 hp
    exact (check_part hF hv hs).2.1 (hne part s hs)

theorem contiguous_child {F : Frame V P} (hF : FrameInv F) (ord : SetOrder P) {p q : ℕ} {v w : View V P}
    (hv : F.view p = some v) (hp : v.parent = some q) (hw : F.view q = some w)
    (hcw : ContiguousPlan F.data.graph w.assignment) :
    (contiguous ord F p = .ok true ↔ ContiguousPlan F.data.graph v.assignment) ∧
    (NonemptyPlan v.assignment → ∃ b, contiguous ord F p = .ok b) := by
  obtain ⟨flips, l, hfl, hs, haf, hl⟩ := affectedParts_child hF ord hv hp hw
  have hkey : ∀ x ∈ l, ∃ s, v.assignment.parts.get? x = some s := by
    intro x hx
    rw [hl] at hx
    obtain ⟨n, r, hn, h⟩ := hx
    rw [← Dict.mem_keys_iff]
    rcases h with rfl | h
    · refine (hF.coherent p v hv).complete n x ?_
      rw [hs.get?, hn]; rfl
    · rw [hs.keys]
      exact (hF.coherent q w hw).complete n x h
  unfold contiguous
  rw [hv]
  simp only
  rw [haf]
  simp only [bind, Except.bind]
  constructor
  · rw [pyAll_true]
    constructor
    · intro h part s hps
      by_cases ha : Affected w.assignment flips part
      · exact (check_part hF hv hps).1.1 (h part ((hl part).2 ha))
      · exact hcw part s (unaffected_same hF hv hw hs hps ha)
    · intro h part hpl
      obtain ⟨s, hps⟩ := hkey part hpl
      exact (check_part hF hv hps).1.2 (h part s hps)
  · intro hne
    refine pyAll_ok (fun part hpl => ?_)
    obtain ⟨s, hps⟩ := hkey part hpl
    exact (check_part hF hv hps).2.1 (hne part s hps)

section
variable {D : GraphData V} {ups : List Key} {ops : List (Op V P)}

/-! ### C23 -/

/-- **C23 (no flips).** `contiguous(p)` for a partition without flips: `True` iff every district is nonempty and connected;
it returns whenever no district is empty. -/
theorem C23_initial (hD : D.graph.WF) (hops : ∀ op ∈ ops, op.WF) (ord : SetOrder P) {p : ℕ} {v : View V P}
    (hv : (Heap.after D ups ops).frame.view p = some v) (hfl : v.flips = none) :
    (contiguous ord (Heap.after D ups ops).frame p = .ok true ↔ ContiguousPlan D.graph v.assignment) ∧
    (NonemptyPlan v.assignment → ∃ b, contiguous ord (Heap.after D ups ops).frame p = .ok b) := by
  obtain ⟨hi, hd, -⟩ := after_inv (P := P) (ups := ups) hD hops
  have := contiguous_initial hi.frame ord hv hfl
  rw [hd] at this
  exact this

/-- **C23 (child).** `contiguous(p)` for a child of a contiguous partition: `True` iff every district of the child (changed
or not) is nonempty and connected; it returns whenever no district is empty. -/
theorem C23_child (hD : D.graph.WF) (hops : ∀ op ∈ ops, op.WF) (ord : SetOrder P) {p q : ℕ} {v w : View V P}
    (hv : (Heap.after D ups ops).frame.view p = some v) (hp : v.parent = some q)
    (hw : (Heap.after D ups ops).frame.view q = some w) (hcw : ContiguousPlan D.graph w.assignment) :
    (contiguous ord (Heap.after D ups ops).frame p = .ok true ↔ ContiguousPlan D.graph v.assignment) ∧
    (NonemptyPlan v.assignment → ∃ b, contiguous ord (Heap.after D ups ops).frame p = .ok b) := by
  obtain ⟨hi, hd, -⟩ := after_inv (P := P) (ups := ups) hD hops
  rw [← hd] at hcw
  have := contiguous_child hi.frame ord hv hp hw hcw
  rw [hd] at this
  exact this

/-! ### C24 -/

theorem contiguousBfs_go {fuel : ℕ} {adj : P → Dict V (List V)} {f : P → Py Bool} (l : List P)
    (h : ∀ x ∈ l, bfs fuel (adj x) = some (f x)) : contiguousBfs.go fuel adj l = some (pyAll f l) := by
  induction l with
  | nil => rfl
  | cons x l ih =>
    unfold contiguousBfs.go pyAll
    rw [h x List.mem_cons_self]
    rcases hf : f x with e | b
    · rfl
    · cases b
      · rfl
      · simp only [bind, Except.bind]
        exact ih (fun y hy => h y (List.mem_cons_of_mem _ hy))

/-- **C24.** If every district is nonempty, `contiguous_bfs` returns exactly what `contiguous` returns (in particular it
returns), for every partition in every history, every iteration order and every order of the adjacency lists. -/
theorem C24_bfs_agrees (hD : D.graph.WF) (hops : ∀ op ∈ ops, op.WF) (ord : SetOrder P) {p : ℕ} {v : View V P}
    (hv : (Heap.after D ups ops).frame.view p = some v) (hne : NonemptyPlan v.assignment) (adj : P → Dict V (List V))
    (hadj : ∀ part s, v.assignment.parts.get? part = some s → AdjDict (D.graph.subgraph s) (adj part))
    {fuel : ℕ} (hf : D.graph.nodes.card < fuel) :
    contiguousBfs fuel ord adj (Heap.after D ups ops).frame p = some (contiguous ord (Heap.after D ups ops).frame p) := by
  obtain ⟨hi, hd, -⟩ := after_inv (P := P) (ups := ups) hD hops
  unfold contiguousBfs contiguous
  rw [hv]
  simp only
  rcases haf : affectedParts ord (Heap.after D ups ops).frame v with e | l
  · rfl
  · simp only [bind, Except.bind]
    refine contiguousBfs_go l (fun x hx => ?_)
    -- every affected part is a district
    have hkey : ∃ s, v.assignment.parts.get? x = some s := by
      rcases hfl : v.flips with _ | flips
      · unfold affectedParts at haf
        rw [hfl] at haf
        cases haf
        exact Dict.mem_keys_iff.1 hx
      · rcases hpar : v.parent with _ | q
        · unfold affectedParts at haf
          rw [hfl] at haf
          simp only at haf
          rw [hpar] at haf
          cases haf
          rw [ord.mem, List.mem_toFinset] at hx
          obtain ⟨hw, hm⟩ := hi.frame.flips p v flips hv hfl
          obtain ⟨n, hn⟩ := (Dict.mem_values_iff hw).1 hx
          exact Dict.mem_keys_iff.1 ((hi.frame.coherent p v hv).complete n x (hm n x hn))
        · obtain ⟨w, hlink⟩ := hi.frame.link p v q hv hpar
          obtain ⟨flips', l', -, hs, haf', hl'⟩ := affectedParts_child hi.frame ord hv hpar hlink.view
          rw [haf] at haf'
          cases haf'
          rw [hl'] at hx
          obtain ⟨n, r, hn, h⟩ := hx
          rw [← Dict.mem_keys_iff]
          rcases h with rfl | h
          · refine (hi.frame.coherent p v hv).complete n x ?_
            rw [hs.get?, hn]; rfl
          · rw [hs.keys]
            exact (hi.frame.coherent q w hlink.view).complete n x h
    obtain ⟨s, hs⟩ := hkey
    have hget : v.assignment.parts.get x = .ok s := Dict.get_eq_ok_iff.2 hs
    unfold subgraphOf
    rw [hget]
    simp only [bind, Except.bind, pure, Except.pure]
    have hsub : s ⊆ D.graph.nodes := by rw [← hd]; exact district_subset hi.frame hv hs
    have hnodes : (D.graph.subgraph s).nodes = s := Finset.inter_eq_right.2 hsub
    rw [hd]
    obtain ⟨b, hb, hb'⟩ := bfs_spec (hD.subgraph s) (hadj x s hs) (by rw [hnodes]; exact hne x s hs)
      (fuel := fuel) (by rw [hnodes]; exact lt_of_le_of_lt (Finset.card_le_card hsub) hf)
    obtain ⟨c, hc, hc'⟩ := nxIsConnected_spec (hD.subgraph s) (by rw [hnodes]; exact hne x s hs)
    rw [hb, hc]
    have : b = c := by
      rw [Bool.eq_iff_iff, hb', hc']
    rw [this]

end

end GC

import Verif.Props.HeapChain
import Verif.Props.SingleFlip

/-!
# Invariants of chains over partitions; C61, C62
-/

set_option linter.unusedSectionVars false
set_option autoImplicit false

namespace GC

variable {V P X : Type} [LinearOrder V] [DecidableEq P]
variable {c : ChainCfg (World V P X) ℕ}

/-- A world reached by partition operations keeps the graph data and all assignments. -/
theorem Reaches.stable {s s' : World V P X} (hs : HeapInv s.1) (h : Reaches s s') :
    HeapInv s'.1 ∧ Stable s.1.frame s'.1.frame := by
  obtain ⟨ops, h1, h2⟩ := h
  rw [h2]
  exact hs.run h1

theorem allPass_reaches {cs : List (Constraint (World V P X) ℕ)} (h : ∀ con ∈ cs, ∀ r, LookupsOnly (con.call r)) {q : ℕ}
    {s s' : World V P X} (ha : AllPass q cs s s') : Reaches s s' := by
  have := validator_reaches h q s
  rw [(C19_validator_true q cs s s').2 ha] at this
  exact this

/-- When all constraints pass, each of them answered `True` in a world that differs from the first only in caches. -/
theorem allPass_world {cs : List (Constraint (World V P X) ℕ)} (h : ∀ con ∈ cs, ∀ r, LookupsOnly (con.call r)) {q : ℕ}
    {s s' : World V P X} (ha : AllPass q cs s s') {con : Constraint (World V P X) ℕ} (hc : con ∈ cs) :
    ∃ s2 s2' v, s2.1.frame = s.1.frame ∧ Reaches s s2 ∧ con.call q s2 = (.ok v, s2') ∧ v.IsBool true ∧ Reaches s2 s' ∧
      Reaches s2' s' := by
  induction ha with
  | nil => simp at hc
  | @cons a cs v s s1 s' h1 h2 h3 ih =>
    have hr : Reaches s s1 := by
      have := (h a List.mem_cons_self q).reaches s
      rw [h1] at this
      exact this
    have hr' := allPass_reaches (fun con hc => h con (List.mem_cons_of_mem _ hc)) h3
    rcases List.mem_cons.1 hc with rfl | hc
    · exact ⟨s, s1, v, rfl, Reaches.refl s, h1, h2, hr.trans hr', hr'⟩
    · obtain ⟨s2, s2', v', e1, e2, e3, e4, e5, e6⟩ := ih (fun con hc => h con (List.mem_cons_of_mem _ hc)) hc
      refine ⟨s2, s2', v', ?_, hr.trans e2, e3, e4, e5, e6⟩
      rw [e1]
      obtain ⟨ops, g1, g2⟩ := h a List.mem_cons_self q s
      rw [h1] at g2
      simp only at g2
      rw [g2, run_lookups_frame g1]

/-- The situation in which a chain calls its constraints. -/
structure Checked (c : ChainCfg (World V P X) ℕ) (st q : ℕ) (s s2 : World V P X) : Prop where
  inv : HeapInv s2.1
  before : Reaches s s2
  child : q = st ∨ ∃ v, s2.1.frame.view q = some v ∧ v.parent = some st

theorem proposal_erased {cs : List (Constraint (World V P X) ℕ)} (h : HeapChain c cs) {st q : ℕ} {s s1 : World V P X}
    (hs : HeapInv s.1) (hst : st < s.1.frame.objs.length) (hp : c.proposal st s = (.ok q, s1)) :
    Checked c st q s (c.erase st s1) := by
  have r1 := h.proposal.reaches st s
  rw [hp] at r1
  have r2 : Reaches s1 (c.erase st s1) := by rw [h.erase]; exact erase_reaches st s1
  refine ⟨(r1.trans r2).inv hs, r1.trans r2, ?_⟩
  obtain ⟨ops, h1, ⟨rfl, -⟩ | ⟨flips, F, hf, h2, h3, h4⟩⟩ := h.proposal.ok st s q s1 hp
  · exact .inl rfl
  · right
    have hi := (hs.run (lookups_wf h1)).1
    obtain ⟨-, -, v, b, -, -, w, hw, -, hw3⟩ := hi.frame.flip hf h2
    rw [run_lookups_frame h1, ← h4] at hw
    have hne : q ≠ st := by omega
    refine ⟨w, ?_, hw3⟩
    rw [h.erase]
    have hv1 : s1.1.frame.view q = some w := by rw [h3]; exact hw
    have := view_eraseParent (p := st) hv1
    rw [if_neg hne] at this
    exact this

/-- If every step preserves `Good`, all states of a run are good at the end. -/
theorem collect_good {fuel body k : ℕ} {ch : Chain (World V P X) ℕ} (h : HeapChain c ch.isValid)
    (Good : World V P X → ℕ → Prop)
    (hstab : ∀ s s' r, HeapInv s.1 → Reaches s s' → Good s r → Good s' r)
    (hstep : ∀ st q s s1 s3, HeapInv s.1 → st < s.1.frame.objs.length → Good s st → c.proposal st s = (.ok q, s1) →
      AllPass q ch.isValid (c.erase st s1) s3 → Good s3 q)
    {s s' : World V P X} (hs : HeapInv s.1) (hst : ch.state < s.1.frame.objs.length) (hg : Good s ch.state)
    (hk : ch.counter = some k) {ys : List ℕ} {ch' : Chain (World V P X) ℕ}
    (hl : Chain.collect c fuel body ch s = some (.ok ys, ch', s')) : ∀ y ∈ ys, Good s' y := by
  induction body generalizing ch s k ys with
  | zero => simp [Chain.collect] at hl
  | succ n ih =>
    unfold Chain.collect at hl
    rcases hn : ch.next c fuel s with _ | ⟨r, ch1, s1⟩ <;> rw [hn] at hl <;> simp only at hl
    · cases hl
    have r1 := next_reaches h hn
    obtain ⟨hvd, h1 | h1⟩ := next_result hk hn
    · obtain ⟨y, rfl, h2, h3, h4, h5⟩ := h1
      simp only at hl
      rcases hr : Chain.collect c fuel n ch1 s1 with _ | ⟨_ | ys1, ch2, s2⟩ <;> rw [hr] at hl <;> simp only at hl
      · cases hl
      · simp at hl
      simp only [Option.some.injEq, Prod.mk.injEq, Except.ok.injEq] at hl
      obtain ⟨rfl, rfl, rfl⟩ := hl
      -- the new state is good
      have hy : Good s1 y ∧ y < s1.1.frame.objs.length := by
        obtain ⟨v, hv⟩ := hs.frame.exists_view hst
        obtain ⟨w, hw⟩ := next_view h hs hv hn
        refine ⟨?_, Frame.lt_of_view hw⟩
        rcases k with _ | k
        · have hys := h5 rfl
          rw [hys]
          exact hstab s s1 _ hs r1 hg
        · have hkt : ((k + 1 : ℕ) : ℤ) < c.totalSteps := by
            unfold yields at h4; omega
          obtain ⟨s0, q, b, e1, ⟨w1, w3, f1, f2, f3⟩, e3, -⟩ := (C18_next_iff c ch k hk hkt s y ch1 s1).1 ⟨fuel, hn⟩
          -- through the refused proposals
          have hrej : Reaches s s0 ∧ Good s0 ch.state := by
            clear e3 f1 f2 f3 hn r1 hr ih hw
            clear hv
            induction e1 with
            | refl => exact ⟨Reaches.refl _, hg⟩
            | @step s s1 s3 s' q p1 p2 p3 ih =>
              have t1 := h.proposal.reaches ch.state s
              rw [p1] at t1
              have t2 : Reaches s1 (c.erase ch.state s1) := by rw [h.erase]; exact erase_reaches _ _
              have t3 := validator_reaches h.constraint q (c.erase ch.state s1)
              rw [p2] at t3
              have t := (t1.trans t2).trans t3
              obtain ⟨g1, g2⟩ := t.stable hs
              obtain ⟨u1, u2⟩ := ih g1 (lt_of_lt_of_le hst g2.length) (hstab _ _ _ hs t hg)
              exact ⟨t.trans u1, u2⟩
          obtain ⟨hr0, hg0⟩ := hrej
          obtain ⟨hi0, hst0⟩ := hr0.stable hs
          have t1 := h.proposal.reaches ch.state s0
          rw [f1] at t1
          have t2 : Reaches w1 (c.erase ch.state w1) := by rw [h.erase]; exact erase_reaches _ _
          have t3 := validator_reaches h.constraint q (c.erase ch.state w1)
          rw [f2] at t3
          have t4 := (h.accept q).reaches w3
          rw [f3] at t4
          cases b
          · simp only [Bool.false_eq_true, if_false] at e3
            rw [e3]
            exact hstab s0 s1 _ hi0 (((t1.trans t2).trans t3).trans t4) hg0
          · simp only [if_true] at e3
            rw [e3]
            refine hstab w3 s1 q (((t1.trans t2).trans t3).inv hi0) t4 ?_
            exact hstep ch.state q s0 w1 w3 hi0 (lt_of_lt_of_le hst hst0.length) hg0 f1
              ((C19_validator_true q _ _ _).1 f2)
      have hi1 := r1.inv hs
      have hrest := ih (hvd ▸ h) (by rw [hvd]; exact hstep) hi1 (by rw [h3]; exact hy.2) (by rw [h3]; exact hy.1) h2 hr
      intro z hz
      rcases List.mem_cons.1 hz with rfl | hz
      · obtain ⟨v, hv⟩ := hi1.frame.exists_view hy.2
        have := (collect_history (hvd ▸ h) hi1 (h3 ▸ hv) h2 hr).1
        exact hstab s1 _ z hi1 this hy.1
      · exact hrest z hz
    · obtain ⟨e, rfl, h2, h3, h4⟩ := h1
      have he : e = .stopIteration := by
        by_contra hne
        rcases e <;> simp at hl hne
      subst he
      simp only [Option.some.injEq, Prod.mk.injEq, Except.ok.injEq] at hl
      obtain ⟨rfl, -, rfl⟩ := hl
      simp

/-! ### C61 -/

/-- The constraint calls `contiguous`. -/
def Constraint.IsContiguous (ord : SetOrder P) (con : Constraint (World V P X) ℕ) : Prop :=
  ∀ r s, con.call r s = ((contiguous ord s.1.frame r).map CVal.bool, s)

/-- The partition `r` exists in world `s` and all its districts are nonempty and connected. -/
def GoodPlan (s : World V P X) (r : ℕ) : Prop :=
  ∃ v, s.1.frame.view r = some v ∧ ContiguousPlan s.1.frame.data.graph v.assignment

theorem GoodPlan.stable {s s' : World V P X} {r : ℕ} (hs : HeapInv s.1) (h : Reaches s s') (hg : GoodPlan s r) :
    GoodPlan s' r := by
  obtain ⟨v, hv, hc⟩ := hg
  obtain ⟨-, hst⟩ := h.stable hs
  obtain ⟨v', h1, h2⟩ := hst.view r v hv
  exact ⟨v', h1, by rw [hst.data, h2]; exact hc⟩

/-- **C61.** A chain with the constraint `contiguous` (anywhere in the list), started on a newly created partition, yields
only plans whose districts are all nonempty and connected: for every graph, flip proposal, other constraints, acceptance
function and run. -/
theorem C61_contiguous_chain {D : GraphData V} {ups : List Key} {ops : List (Op V P)} (hD : D.graph.WF)
    (hops : ∀ op ∈ ops, op.WF) (ord : SetOrder P) (cs : List (Constraint (World V P X) ℕ)) (h : HeapChain c cs)
    {con : Constraint (World V P X) ℕ} (hcon : con ∈ cs) (hcc : con.IsContiguous ord)
    (x : X) {v0 : View V P} (hv0 : (Heap.after D ups ops).frame.view c.initial = some v0) (hfl : v0.flips = none)
    {ch : Chain (World V P X) ℕ} {s0 : World V P X} (hinit : Chain.init c cs (Heap.after D ups ops, x) = (.ok ch, s0))
    {fuel body : ℕ} {s' : World V P X} {ys : List ℕ} {ch' : Chain (World V P X) ℕ}
    (hl : ch.list c fuel body s0 = some (.ok ys, ch', s')) :
    ∀ y ∈ ys, ∃ v, s'.1.frame.view y = some v ∧ ContiguousPlan D.graph v.assignment := by
  obtain ⟨hi, hd, -⟩ := after_inv (P := P) (ups := ups) hD hops
  have hchk : validator c.initial cs (Heap.after D ups ops, x) = (.ok true, s0) ∧ ch = ⟨cs, none, c.initial⟩ := by
    unfold Chain.init checkInitial at hinit
    rcases hv : validator c.initial cs (Heap.after D ups ops, x) with ⟨e | (_ | _), s2⟩ <;> rw [hv] at hinit <;>
      simp only at hinit
    · simp at hinit
    · rcases hf : failedConstraints c.initial cs s2 with ⟨e | l, s3⟩ <;> rw [hf] at hinit <;> simp at hinit
    · simp only [Prod.mk.injEq, Except.ok.injEq] at hinit
      obtain ⟨rfl, rfl⟩ := hinit
      exact ⟨rfl, rfl⟩
  obtain ⟨hval, rfl⟩ := hchk
  have hpass := (C19_validator_true _ _ _ _).1 hval
  have hr0 := allPass_reaches h.constraint hpass
  have hans : ∀ {r : ℕ} {w w' : World V P X} {v : CVal}, con.call r w = (.ok v, w') → v.IsBool true →
      contiguous ord w.1.frame r = .ok true := by
    intro r w w' v h1 h2
    rw [hcc] at h1
    rcases hb : contiguous ord w.1.frame r with e | b
    · rw [hb] at h1; simp [Except.map] at h1
    · rw [hb] at h1
      simp only [Except.map, Prod.mk.injEq, Except.ok.injEq] at h1
      rw [← h1.1] at h2
      rcases h2 with h2 | h2 <;> cases h2
      rfl
  -- the initial plan
  have hg0 : GoodPlan s0 c.initial := by
    obtain ⟨s2, s2', v, e1, e2, e3, e4, e5, -⟩ := allPass_world h.constraint hpass hcon
    have hct := hans e3 e4
    rw [e1] at hct
    refine GoodPlan.stable (s := (Heap.after D ups ops, x)) hi hr0 ⟨v0, hv0, ?_⟩
    exact (contiguous_initial hi.frame ord hv0 hfl).1.1 hct
  have hi0 := hr0.inv hi
  have hlt : c.initial < s0.1.frame.objs.length := by
    obtain ⟨v, hv, -⟩ := hg0
    exact Frame.lt_of_view hv
  have key := collect_good (ch := Chain.iter c ⟨cs, none, c.initial⟩) (k := 0) h GoodPlan
    (fun s s' r a b c => GoodPlan.stable a b c) ?_ hi0 hlt hg0 rfl hl
  · intro y hy
    obtain ⟨v, h1, h2⟩ := key y hy
    refine ⟨v, h1, ?_⟩
    obtain ⟨g1, g2⟩ := hr0.stable hi
    have hf := collect_history (ch := Chain.iter c ⟨cs, none, c.initial⟩) (k := 0) h hi0
      (v := hg0.choose) hg0.choose_spec.1 rfl hl
    obtain ⟨-, g4⟩ := hf.1.stable hi0
    rw [g4.data, g2.data] at h2
    simp only at h2
    rw [hd] at h2
    exact h2
  · intro st q s s1 s3 hs hst hg hp hpass'
    have hch := proposal_erased h hs hst hp
    obtain ⟨s2, s2', v, e1, e2, e3, e4, e5, -⟩ := allPass_world h.constraint hpass' hcon
    have hi2 := e2.inv hch.inv
    refine GoodPlan.stable hi2 e5 ?_
    have hgs := GoodPlan.stable hs (hch.before.trans e2) hg
    rcases hch.child with rfl | ⟨vq, hvq, hpar⟩
    · exact hgs
    · rw [← e1] at hvq
      obtain ⟨w, hw, hcw⟩ := hgs
      exact ⟨vq, hvq, (contiguous_child hi2.frame ord hvq hpar hw hcw).1.1 (hans e3 e4)⟩

/-- the constraint `contiguous` -/
def contiguousCon (ord : SetOrder P) : Constraint (World V P X) ℕ where
  call r s := ((contiguous ord s.1.frame r).map CVal.bool, s)
  name := some "contiguous"

theorem exContiguousChain : HeapChain exHeapCfg [contiguousCon natOrd] := by
  refine ⟨rfl, tapeProposal_flip, ?_, fun r s => ⟨[], by simp, rfl⟩⟩
  intro con hc r s
  simp only [List.mem_singleton] at hc
  subst hc
  exact ⟨[], by simp, rfl⟩

/-- The hypotheses of C61 are met and the chain runs: the flips (0, 2) and (3, 1) would disconnect district 2 and are
refused. -/
example : (Heap.after exData3 exUps [.create exDict3]).frame.view 0 ≠ none ∧
    ((Chain.init exHeapCfg [contiguousCon natOrd] (Heap.after exData3 exUps [.create exDict3], [(0, 2), (1, 2), (3, 1), (2, 1)])).1.map
      (fun ch => ch.state)) = .ok 0 ∧
    (((Chain.list exHeapCfg 9 9 ⟨[contiguousCon natOrd], none, 0⟩
      (Heap.after exData3 exUps [.create exDict3], [(0, 2), (1, 2), (3, 1), (2, 1)])).map (fun r => r.1)) =
    some (.ok [0, 2, 2, 2])) := by
  refine ⟨?_, ?_, ?_⟩ <;> decide +kernel

/-! ### C62 -/

/-- the constraint `contiguous_bfs` -/
def bfsCon (ord : SetOrder P) (fuel : ℕ) : Constraint (World V P X) ℕ where
  call r s := (match s.1.frame.view r with
    | none => .error .attributeError
    | some v => match contiguousBfs fuel ord
        (fun part => toDictOfLists (s.1.frame.data.graph.subgraph ((v.assignment.parts.get? part).getD ∅))) s.1.frame r with
      | none => .error .recursionError
      | some r => r.map CVal.bool, s)
  name := some "contiguous_bfs"

theorem exBfsChain : HeapChain exHeapCfg [bfsCon natOrd 20] := by
  refine ⟨rfl, tapeProposal_flip, ?_, fun r s => ⟨[], by simp, rfl⟩⟩
  intro con hc r s
  simp only [List.mem_singleton] at hc
  subst hc
  exact ⟨[], by simp, rfl⟩

/-- **C62 is violated**: a chain of length 4 constrained by `contiguous_bfs`.  The second proposal empties district 1,
`next(iter({}))` raises `StopIteration` inside `__next__`, and `list(chain)` ends normally after 2 states. -/
theorem C62_stop_iteration_leak :
    Chain.len exHeapCfg = .ok 4 ∧
    ((Chain.list exHeapCfg 9 9 ⟨[bfsCon natOrd 20], none, 0⟩
      (Heap.after exData exUps [.create exDict], [(1, 2), (0, 2), (1, 1)])).map (fun r => r.1)) = some (.ok [0, 1]) := by
  constructor <;> decide +kernel

/-- **C62 (partial).** When no callable of the chain raises `StopIteration`, a run that returns has yielded `max 1 n` states. -/
theorem C62_full_length_partial {S R : Type} (c : ChainCfg S R) (ch : Chain S R) (hns : NoStop c ch.isValid) (fuel body : ℕ)
    (s s' : S) (ys : List R) (ch' : Chain S R) (h : ch.list c fuel body s = some (.ok ys, ch', s')) :
    ys.length = max 1 c.totalSteps.toNat := (C13_list_length c ch hns fuel body s s' ys ch' h).1

/-- `contiguous` never raises `StopIteration`, so chains constrained by it instead cannot end early. -/
theorem C62_contiguous_noStop (ord : SetOrder P) (F : Frame V P) (p : ℕ) : contiguous ord F p ≠ .error .stopIteration := by
  have hcheck : ∀ (a : Assignment V P) part, (do let g ← subgraphOf F.data.graph a part
                                                 nxIsConnected g : Py Bool) ≠ .error .stopIteration := by
    intro a part
    unfold subgraphOf Dict.get
    rcases a.parts.get? part with _ | s
    · simp [bind, Except.bind]
    · simp only [bind, Except.bind, pure, Except.pure]
      unfold nxIsConnected
      split <;> simp
  have hall : ∀ (a : Assignment V P) (l : List P), pyAll (fun part => do
      let g ← subgraphOf F.data.graph a part
      nxIsConnected g) l ≠ .error .stopIteration := by
    intro a l
    induction l with
    | nil => simp [pyAll]
    | cons x l ih =>
      unfold pyAll
      have := hcheck a x
      rcases hx : (do let g ← subgraphOf F.data.graph a x
                      nxIsConnected g : Py Bool) with e | b
      · rw [hx] at this
        simpa [bind, Except.bind] using this
      · cases b
        · simp [bind, Except.bind]
        · exact ih
  unfold contiguous
  rcases F.view p with _ | v
  · simp
  · simp only
    rcases haf : affectedParts ord F v with e | l
    · simp only [bind, Except.bind]
      unfold affectedParts at haf
      intro he
      cases he
      rcases hfl : v.flips with _ | flips <;> rw [hfl] at haf <;> simp only at haf
      · cases haf
      · rcases hpa : v.parent with _ | q <;> rw [hpa] at haf <;> simp only at haf
        · cases haf
        · rcases hwq : F.view q with _ | w <;> rw [hwq] at haf <;> simp only at haf
          · cases haf
          · -- the loop over the flips
            have : ∀ (l : List (V × P)) (s : Finset P), l.foldlM (fun (s : Finset P) e => (do
                let old ← w.assignment.mapping.get e.1
                return insert old (insert e.2 s) : Py (Finset P))) s ≠ .error .stopIteration := by
              intro l
              induction l with
              | nil => intro s; simp [pure, Except.pure]
              | cons e l ih =>
                intro s
                rw [List.foldlM_cons]
                unfold Dict.get
                rcases w.assignment.mapping.get? e.1 with _ | r
                · simp [bind, Except.bind]
                · exact ih _
            rcases hz : flips.entries.foldlM (fun (s : Finset P) e => (do
                let old ← w.assignment.mapping.get e.1
                return insert old (insert e.2 s) : Py (Finset P))) ∅ with e | z
            · rw [hz] at haf
              cases haf
              exact this _ _ hz
            · rw [hz] at haf
              cases haf
    · exact hall _ _

end GC

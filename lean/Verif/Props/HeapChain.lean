import Verif.Model.HeapChain
import Verif.Props.Chain
import Verif.Props.Updaters

/-!
# C04 – C16 for chains over partition objects
-/

set_option linter.unusedSectionVars false
set_option autoImplicit false

namespace GC

variable {V P X : Type} [LinearOrder V] [DecidableEq P]

theorem run_lookups_frame {H : Heap V P} {ops : List (Op V P)} (h : ∀ op ∈ ops, op.IsLookup) :
    (H.run ops).frame = H.frame := by
  induction ops generalizing H with
  | nil => rfl
  | cons op ops ih =>
    have : (H.run (op :: ops)) = (H.step op).run ops := rfl
    rw [this, ih (fun o ho => h o (List.mem_cons_of_mem _ ho))]
    have := h op List.mem_cons_self
    cases op <;> first | rfl | exact absurd this id

theorem run_append (H : Heap V P) (a b : List (Op V P)) : H.run (a ++ b) = (H.run a).run b := by
  unfold Heap.run; rw [List.foldl_append]

theorem lookups_wf {ops : List (Op V P)} (h : ∀ op ∈ ops, op.IsLookup) : ∀ op ∈ ops, op.WF := by
  intro op hop
  have := h op hop
  cases op <;> first | trivial | exact absurd this id

/-- `s'` is reached from `s` by operations on partitions. -/
def Reaches (s s' : World V P X) : Prop := ∃ ops : List (Op V P), (∀ op ∈ ops, op.WF) ∧ s'.1 = s.1.run ops

theorem Reaches.refl (s : World V P X) : Reaches s s := ⟨[], by simp, rfl⟩

theorem Reaches.trans {s s' s'' : World V P X} (h : Reaches s s') (h' : Reaches s' s'') : Reaches s s'' := by
  obtain ⟨a, ha, h1⟩ := h
  obtain ⟨b, hb, h2⟩ := h'
  refine ⟨a ++ b, ?_, by rw [h2, h1, run_append]⟩
  intro op hop
  rcases List.mem_append.1 hop with h | h
  · exact ha op h
  · exact hb op h

theorem LookupsOnly.reaches {α : Type} {m : M (World V P X) α} (h : LookupsOnly m) (s : World V P X) :
    Reaches s (m s).2 := by
  obtain ⟨ops, h1, h2⟩ := h s
  exact ⟨ops, lookups_wf h1, h2⟩

theorem erase_reaches (r : ℕ) (s : World V P X) : Reaches s (World.erase r s) :=
  ⟨[.eraseParent r], by intro op hop; simp only [List.mem_singleton] at hop; subst hop; trivial, rfl⟩

theorem FlipProposal.reaches {prop : ℕ → M (World V P X) ℕ} (h : FlipProposal prop) (st : ℕ) (s : World V P X) :
    Reaches s (prop st s).2 := by
  rcases hp : prop st s with ⟨e | q, s1⟩
  · obtain ⟨ops, h1, h2⟩ := h.error st s e s1 hp
    exact ⟨ops, lookups_wf h1, h2⟩
  · obtain ⟨ops, h1, ⟨-, h2⟩ | ⟨flips, F, hf, h2, h3, -⟩⟩ := h.ok st s q s1 hp
    · exact ⟨ops, lookups_wf h1, h2⟩
    · refine ⟨ops ++ [.flip st flips], ?_, ?_⟩
      · intro op hop
        rcases List.mem_append.1 hop with h | h
        · exact lookups_wf h1 op h
        · simp only [List.mem_singleton] at h; subst h; exact hf
      · rw [run_append]
        simp only
        rw [h3]
        show _ = (s.1.run ops).step (.flip st flips)
        unfold Heap.step
        simp only
        rw [h2]

/-- The callables of a chain over partitions. -/
structure HeapChain (c : ChainCfg (World V P X) ℕ) (cs : List (Constraint (World V P X) ℕ)) : Prop where
  erase : c.erase = World.erase
  proposal : FlipProposal c.proposal
  constraint : ∀ con ∈ cs, ∀ r, LookupsOnly (con.call r)
  accept : ∀ r, LookupsOnly (c.accept r)

section
variable {c : ChainCfg (World V P X) ℕ} {cs : List (Constraint (World V P X) ℕ)}

theorem parent_lookups {α : Type} {m : M (World V P X) α} (h : LookupsOnly m) (s : World V P X) :
    World.parent (m s).2 = World.parent s := by
  obtain ⟨ops, h1, h2⟩ := h s
  funext r
  unfold World.parent
  rw [h2, run_lookups_frame h1]

theorem HeapChain.lineage (h : HeapChain c cs) : Lineage c cs World.parent 1 := by
  constructor
  · intro s r
    rw [h.erase]
    unfold World.parent World.erase Heap.step Frame.eraseParent
    simp only
    rcases ho : s.1.frame.objs[r]? with _ | o
    · simp [ho]
    · have := (List.getElem?_eq_some_iff.1 ho).1
      simp [this]
  · intro s r r' hne
    rw [h.erase]
    unfold World.parent World.erase Heap.step Frame.eraseParent
    simp only
    rcases ho : s.1.frame.objs[r]? with _ | o
    · rfl
    · simp [List.getElem?_set, hne.symm]
  · intro s st q s1 hp
    left
    obtain ⟨ops, h1, ⟨rfl, h2⟩ | ⟨flips, F, hf, h2, h3, h4⟩⟩ := h.proposal.ok st s q s1 hp
    · exact ⟨0, by omega, rfl⟩
    · refine ⟨1, le_rfl, ?_⟩
      unfold ancestor
      have : World.parent s1 q = some st := by
        unfold World.parent
        rw [h3]
        simp only
        rw [run_lookups_frame h1] at h2
        unfold Frame.flip at h2
        simp only [bind, Except.bind, pure, Except.pure] at h2
        rcases hv : s.1.frame.view st with _ | v <;> rw [hv] at h2 <;> simp only at h2
        · cases h2
        rcases g1 : flowsFromChanges v.assignment.mapping flips with e | fl <;> rw [g1] at h2 <;> simp only at h2
        · cases h2
        rcases g2 : v.assignment.copy with e | cp <;> rw [g2] at h2 <;> simp only at h2
        · cases h2
        rcases g3 : cp.updateFlows fl with e | b <;> rw [g3] at h2 <;> simp only at h2
        · cases h2
        revert h2
        generalize (if Key.cutEdges ∈ s.1.frame.updaters then
          some <$> computeEdgeFlows s.1.frame.data.graph flips v.assignment.mapping b.mapping else Except.ok none) = z
        intro h2
        rcases z with e | ef
        · cases h2
        · cases h2
          rw [h4]
          simp
      rw [this]
      rfl
  · intro con hcon s r
    exact parent_lookups (h.constraint con hcon r) s
  · intro s r
    exact parent_lookups (h.accept r) s

/-- **C16.** In a chain over partitions (any proposal of the form "look up updaters, then flip or return the same object")
after every step the parent of the current state, if any, has no parent. -/
theorem C16_one_generation (ch : Chain (World V P X) ℕ) (h : HeapChain c ch.isValid) (n fuel : ℕ)
    (hn : ch.counter = some (n + 1)) (s s' : World V P X) (y : ℕ) (ch' : Chain (World V P X) ℕ)
    (hy : ch.next c fuel s = some (.ok y, ch', s')) :
    ch'.state = y ∧ ∀ q, World.parent s' y = some q → World.parent s' q = none := by
  obtain ⟨h1, h2⟩ := C16_bounded_ancestors c ch World.parent 1 h.lineage n fuel hn s s' y ch' hy
  refine ⟨h1, ?_⟩
  intro q hq
  unfold ancestor at h2
  rw [hq] at h2
  simp only [Option.bind_some] at h2
  unfold ancestor at h2
  rcases hp : World.parent s' q with _ | z
  · rfl
  · rw [hp] at h2; simp [ancestor] at h2

theorem validator_reaches {cs' : List (Constraint (World V P X) ℕ)} (h : ∀ con ∈ cs', ∀ r, LookupsOnly (con.call r))
    (q : ℕ) (s : World V P X) : Reaches s (validator q cs' s).2 := by
  induction cs' generalizing s with
  | nil => exact Reaches.refl s
  | cons a cs' ih =>
    have ha := (h a List.mem_cons_self q).reaches s
    have ih' := ih (fun con hc => h con (List.mem_cons_of_mem _ hc))
    unfold validator
    rcases hc : a.call q s with ⟨e | ((_ | _) | (_ | _) | b), s1⟩ <;> rw [hc] at ha <;> simp only at ha ⊢ <;>
      first | exact ha | exact ha.trans (ih' s1)

theorem loop_reaches {ch : Chain (World V P X) ℕ} (h : HeapChain c ch.isValid) {k fuel : ℕ} {s s' : World V P X}
    {r : Py ℕ} {ch' : Chain (World V P X) ℕ} (hl : Chain.loop c ch k fuel s = some (r, ch', s')) : Reaches s s' := by
  induction fuel generalizing s with
  | zero => simp [Chain.loop] at hl
  | succ n ih =>
    unfold Chain.loop at hl
    split at hl
    · have r1 := h.proposal.reaches ch.state s
      rcases hp : c.proposal ch.state s with ⟨e | q, s1⟩ <;> rw [hp] at hl r1 <;> simp only at hl r1
      · simp only [Option.some.injEq, Prod.mk.injEq] at hl
        rw [← hl.2.2]; exact r1
      have r2 := validator_reaches h.constraint q (c.erase ch.state s1)
      have r12 : Reaches s (c.erase ch.state s1) := by
        rw [h.erase]; exact r1.trans (erase_reaches _ _)
      rcases hv : validator q ch.isValid (c.erase ch.state s1) with ⟨e | (_ | _), s3⟩ <;> rw [hv] at hl r2 <;>
        simp only at hl r2
      · simp only [Option.some.injEq, Prod.mk.injEq] at hl
        rw [← hl.2.2]; exact r12.trans r2
      · exact (r12.trans r2).trans (ih hl)
      · have r3 := (h.accept q).reaches s3
        rcases ha : c.accept q s3 with ⟨e | (_ | _), s4⟩ <;> rw [ha] at hl r3 <;>
          simp only [Option.some.injEq, Prod.mk.injEq] at hl <;> rw [← hl.2.2] <;> exact (r12.trans r2).trans r3
    · simp only [Option.some.injEq, Prod.mk.injEq] at hl
      rw [← hl.2.2]; exact Reaches.refl s

theorem next_reaches {ch : Chain (World V P X) ℕ} (h : HeapChain c ch.isValid) {fuel : ℕ} {s s' : World V P X}
    {r : Py ℕ} {ch' : Chain (World V P X) ℕ} (hl : ch.next c fuel s = some (r, ch', s')) : Reaches s s' := by
  unfold Chain.next at hl
  rcases hc : ch.counter with _ | (_ | k) <;> rw [hc] at hl <;> simp only at hl
  · simp only [Option.some.injEq, Prod.mk.injEq] at hl
    rw [← hl.2.2]; exact Reaches.refl s
  · simp only [Option.some.injEq, Prod.mk.injEq] at hl
    rw [← hl.2.2]; exact Reaches.refl s
  · exact loop_reaches h hl

/-- Objects never disappear. -/
theorem Reaches.view {s s' : World V P X} (hs : HeapInv s.1) (h : Reaches s s') {p : ℕ} {v : View V P}
    (hv : s.1.frame.view p = some v) : HeapInv s'.1 ∧ ∃ v', s'.1.frame.view p = some v' ∧ v'.assignment = v.assignment := by
  obtain ⟨ops, h1, h2⟩ := h
  obtain ⟨g1, g2⟩ := hs.run h1
  rw [h2]
  exact ⟨g1, g2.view p v hv⟩

theorem Reaches.inv {s s' : World V P X} (hs : HeapInv s.1) (h : Reaches s s') : HeapInv s'.1 := by
  obtain ⟨ops, h1, h2⟩ := h
  rw [h2]
  exact (hs.run h1).1

/-- A proposal returns an existing object. -/
theorem FlipProposal.exists_view {prop : ℕ → M (World V P X) ℕ} (h : FlipProposal prop) {st q : ℕ} {s s1 : World V P X}
    (hs : HeapInv s.1) {v : View V P} (hv : s.1.frame.view st = some v) (hp : prop st s = (.ok q, s1)) :
    ∃ w, s1.1.frame.view q = some w := by
  obtain ⟨ops, h1, ⟨rfl, h2⟩ | ⟨flips, F, hf, h2, h3, h4⟩⟩ := h.ok st s q s1 hp
  · rw [h2, run_lookups_frame h1]; exact ⟨v, hv⟩
  · have hi := (hs.run (lookups_wf h1)).1
    obtain ⟨-, -, -, -, -, -, w, hw, -⟩ := hi.frame.flip hf h2
    rw [run_lookups_frame h1] at hw
    rw [h3, h4]
    exact ⟨w, hw⟩

theorem loop_view {ch : Chain (World V P X) ℕ} (h : HeapChain c ch.isValid) {k fuel : ℕ} {s s' : World V P X}
    (hs : HeapInv s.1) {v : View V P} (hv : s.1.frame.view ch.state = some v)
    {y : ℕ} {ch' : Chain (World V P X) ℕ} (hl : Chain.loop c ch k fuel s = some (.ok y, ch', s')) :
    ∃ w, s'.1.frame.view y = some w := by
  induction fuel generalizing s v with
  | zero => simp [Chain.loop] at hl
  | succ n ih =>
    unfold Chain.loop at hl
    split at hl
    · have r1 := h.proposal.reaches ch.state s
      rcases hp : c.proposal ch.state s with ⟨e | q, s1⟩ <;> rw [hp] at hl r1 <;> simp only at hl r1
      · simp at hl
      obtain ⟨w, hw⟩ := h.proposal.exists_view hs hv hp
      have r2 := validator_reaches h.constraint q (c.erase ch.state s1)
      have r0 : Reaches s1 (c.erase ch.state s1) := by rw [h.erase]; exact erase_reaches _ _
      rcases hvd : validator q ch.isValid (c.erase ch.state s1) with ⟨e | (_ | _), s3⟩ <;> rw [hvd] at hl r2 <;>
        simp only at hl r2
      · simp at hl
      · have r3 := (r1.trans r0).trans r2
        obtain ⟨g1, v', g2, -⟩ := r3.view hs hv
        exact ih g1 g2 hl
      · have r3 := (h.accept q).reaches s3
        have r4 := r0.trans r2
        rcases ha : c.accept q s3 with ⟨e | (_ | _), s4⟩ <;> rw [ha] at hl r3 <;>
          simp only [Option.some.injEq, Prod.mk.injEq, Except.ok.injEq] at hl
        · simp at hl
        · obtain ⟨rfl, -, rfl⟩ := hl
          obtain ⟨-, v', g, -⟩ := (((r1.trans r0).trans r2).trans r3).view hs hv
          exact ⟨v', g⟩
        · obtain ⟨rfl, -, rfl⟩ := hl
          obtain ⟨-, v', g, -⟩ := (r4.trans r3).view (r1.inv hs) hw
          exact ⟨v', g⟩
    · simp at hl

theorem next_view {ch : Chain (World V P X) ℕ} (h : HeapChain c ch.isValid) {fuel : ℕ} {s s' : World V P X}
    (hs : HeapInv s.1) {v : View V P} (hv : s.1.frame.view ch.state = some v)
    {y : ℕ} {ch' : Chain (World V P X) ℕ} (hl : ch.next c fuel s = some (.ok y, ch', s')) :
    ∃ w, s'.1.frame.view y = some w := by
  unfold Chain.next at hl
  rcases hc : ch.counter with _ | (_ | k) <;> rw [hc] at hl <;> simp only at hl
  · simp at hl
  · simp only [Option.some.injEq, Prod.mk.injEq, Except.ok.injEq] at hl
    obtain ⟨rfl, -, rfl⟩ := hl
    exact ⟨v, hv⟩
  · exact loop_view h hs hv hl

theorem collect_history {ch : Chain (World V P X) ℕ} (h : HeapChain c ch.isValid) {fuel body k : ℕ}
    {s s' : World V P X} (hs : HeapInv s.1) {v : View V P} (hv : s.1.frame.view ch.state = some v)
    (hk : ch.counter = some k)
    {ys : List ℕ} {ch' : Chain (World V P X) ℕ} (hl : Chain.collect c fuel body ch s = some (.ok ys, ch', s')) :
    Reaches s s' ∧ ∀ y ∈ ys, ∃ w, s'.1.frame.view y = some w := by
  induction body generalizing ch s v k ys with
  | zero => simp [Chain.collect] at hl
  | succ n ih =>
    unfold Chain.collect at hl
    rcases hn : ch.next c fuel s with _ | ⟨r, ch1, s1⟩ <;> rw [hn] at hl <;> simp only at hl
    · cases hl
    have r1 := next_reaches h hn
    obtain ⟨hvd, h1 | h1⟩ := next_result hk hn
    · obtain ⟨y, rfl, h2, h3, h4, -⟩ := h1
      simp only at hl
      rcases hr : Chain.collect c fuel n ch1 s1 with _ | ⟨_ | ys1, ch2, s2⟩ <;> rw [hr] at hl <;> simp only at hl
      · cases hl
      · simp at hl
      simp only [Option.some.injEq, Prod.mk.injEq, Except.ok.injEq] at hl
      obtain ⟨rfl, rfl, rfl⟩ := hl
      obtain ⟨w, hw⟩ := next_view h hs hv hn
      obtain ⟨g1, g2⟩ := ih (hvd ▸ h) (r1.inv hs) (h3 ▸ hw) h2 hr
      refine ⟨r1.trans g1, ?_⟩
      intro z hz
      rcases List.mem_cons.1 hz with rfl | hz
      · obtain ⟨-, v', g, -⟩ := g1.view (r1.inv hs) hw
        exact ⟨v', g⟩
      · exact g2 z hz
    · obtain ⟨e, rfl, h2, h3, h4⟩ := h1
      have he : e = .stopIteration := by
        by_contra hne
        rcases e <;> simp at hl hne
      subst he
      simp only [Option.some.injEq, Prod.mk.injEq, Except.ok.injEq] at hl
      obtain ⟨rfl, -, rfl⟩ := hl
      exact ⟨r1, by simp⟩

/-- **C04 – C11 along a chain.** A whole chain run over partitions is one of the histories of C01 – C11: the world after
`list(chain)` is reached by partition operations and every yielded state is an existing partition, so those theorems hold
for each of them at the end of the run. -/
theorem C04_chain_is_history {D : GraphData V} {ups : List Key} {ops : List (Op V P)} (hD : D.graph.WF)
    (hops : ∀ op ∈ ops, op.WF) (ch : Chain (World V P X) ℕ) (h : HeapChain c ch.isValid) (x : X) {v : View V P}
    (hv : (Heap.after D ups ops).frame.view c.initial = some v) (fuel body : ℕ) (s' : World V P X) (ys : List ℕ)
    (ch' : Chain (World V P X) ℕ) (hl : ch.list c fuel body (Heap.after D ups ops, x) = some (.ok ys, ch', s')) :
    ∃ later : List (Op V P), (∀ op ∈ later, op.WF) ∧ s'.1 = Heap.after D ups (ops ++ later) ∧
      ∀ y ∈ ys, ∃ w, (Heap.after D ups (ops ++ later)).frame.view y = some w := by
  have hi := (after_inv (P := P) (ups := ups) hD hops).1
  obtain ⟨⟨later, h1, h2⟩, h3⟩ := collect_history (ch := ch.iter c) (k := 0) h (s := (Heap.after D ups ops, x)) hi hv rfl hl
  have : s'.1 = Heap.after D ups (ops ++ later) := by
    rw [h2]; unfold Heap.after; rw [run_append]
  exact ⟨later, h1, this, fun y hy => by rw [← this]; exact h3 y hy⟩

end

/-! ### Non-vacuity -/

/-- A proposal that flips the next (node, district) pair of a tape, after looking up `cut_edges`. -/
def tapeProposal (st : ℕ) : M (World V P (List (V × P))) ℕ := fun s =>
  let H := s.1.step (.lookup st .cutEdges 100)
  match s.2 with
  | [] => (.ok st, (H, []))
  | f :: fs => match H.frame.flip st ⟨[f]⟩ with
    | .ok F => (.ok H.frame.objs.length, (⟨F, H.caches⟩, fs))
    | .error e => (.error e, (H, fs))

theorem tapeProposal_flip : FlipProposal (tapeProposal (V := V) (P := P)) := by
  constructor
  · intro st s q s1 h
    unfold tapeProposal at h
    refine ⟨[.lookup st .cutEdges 100], by simp [Op.IsLookup], ?_⟩
    rcases hs : s.2 with _ | ⟨f, fs⟩ <;> rw [hs] at h <;> simp only at h
    · simp only [Prod.mk.injEq, Except.ok.injEq] at h
      obtain ⟨rfl, rfl⟩ := h
      exact .inl ⟨rfl, rfl⟩
    · rcases hf : (s.1.step (.lookup st .cutEdges 100)).frame.flip st ⟨[f]⟩ with e | F <;> rw [hf] at h <;> simp only at h
      · simp at h
      · simp only [Prod.mk.injEq, Except.ok.injEq] at h
        obtain ⟨rfl, rfl⟩ := h
        exact .inr ⟨⟨[f]⟩, F, by simp [Dict.WF, Dict.keys], hf, rfl, rfl⟩
  · intro st s e s1 h
    unfold tapeProposal at h
    refine ⟨[.lookup st .cutEdges 100], by simp [Op.IsLookup], ?_⟩
    rcases hs : s.2 with _ | ⟨f, fs⟩ <;> rw [hs] at h <;> simp only at h
    · simp at h
    · rcases hf : (s.1.step (.lookup st .cutEdges 100)).frame.flip st ⟨[f]⟩ with e | F <;> rw [hf] at h <;> simp only at h
      · simp only [Prod.mk.injEq] at h
        obtain ⟨-, rfl⟩ := h
        rfl
      · simp at h

/-- the constraint "there is a cut edge" -/
def cutCon : Constraint (World V P (List (V × P))) ℕ where
  call r s := ((match (getitem s.1.frame 100 .cutEdges r s.1.caches).1 with
    | .ok (.edgeSet E) => .ok (.bool (E.card != 0))
    | .ok _ => .error .typeError
    | .error e => .error e), (s.1.step (.lookup r .cutEdges 100), s.2))
  name := some "has_cut_edge"

/-- a chain over partitions -/
def exHeapCfg : ChainCfg (World ℕ ℕ (List (ℕ × ℕ))) ℕ where
  proposal := tapeProposal
  accept _ s := (.ok true, s)
  erase := World.erase
  totalSteps := 4
  initial := 0

theorem exHeapChain : HeapChain exHeapCfg [cutCon] := by
  refine ⟨rfl, tapeProposal_flip, ?_, fun r s => ⟨[], by simp, rfl⟩⟩
  intro con hc r s
  simp only [List.mem_singleton] at hc
  subst hc
  exact ⟨[.lookup r .cutEdges 100], by simp [Op.IsLookup], rfl⟩

/-- the chain runs: initial state, two flips (the second proposal removes all cut edges and is refused), then the tape is
empty and the state repeats -/
example : ((Chain.list exHeapCfg 9 9 ⟨[cutCon], none, 0⟩
    (Heap.after exData exUps [.create exDict], [(1, 2), (0, 2), (3, 1)])).map (fun r => r.1)) =
    some (.ok [0, 1, 3, 3]) := by decide +kernel

end GC

import Verif.Model.Heap
import Verif.Model.Chain

/-!
# A Markov chain over partition objects

The generic chain of `Verif.Model.Chain` with the partition heap of `Verif.Model.Heap` as its world.  `X` is the rest of the
world: random generator, mutable constraints, whatever the callables use.
-/

set_option linter.unusedSectionVars false
set_option autoImplicit false

namespace GC

variable {V P X : Type} [LinearOrder V] [DecidableEq P]

/-- The world of a chain over partitions. -/
abbrev World (V P X : Type) := Heap V P × X

/-- `partition.parent` (partition/partition.py:27-37). -/
def World.parent (s : World V P X) (r : ℕ) : Option ℕ := (s.1.frame.objs[r]?).bind (·.parent)

/-- `state.parent = None` (chain.py:187-188). -/
def World.erase (r : ℕ) (s : World V P X) : World V P X := (s.1.step (.eraseParent r), s.2)

/-- An updater lookup. -/
def Op.IsLookup : Op V P → Prop
  | .lookup _ _ _ => True
  | _ => False

/-- `m` touches partitions only by looking up updaters (as constraints and acceptance functions do). -/
def LookupsOnly {α : Type} (m : M (World V P X) α) : Prop :=
  ∀ s, ∃ ops : List (Op V P), (∀ op ∈ ops, op.IsLookup) ∧ (m s).2.1 = s.1.run ops

/-- `m` returns `st` itself or `st.flip(flips)` after some updater lookups, as all proposals of the library do
(proposals/proposals.py, proposals/tree_proposals.py, proposals/spectral_proposals.py). -/
structure FlipProposal (prop : ℕ → M (World V P X) ℕ) : Prop where
  ok : ∀ st s q s1, prop st s = (.ok q, s1) → ∃ ops : List (Op V P), (∀ op ∈ ops, op.IsLookup) ∧
    ((q = st ∧ s1.1 = s.1.run ops) ∨
     ∃ (flips : Dict V P) (F : Frame V P), flips.WF ∧ (s.1.run ops).frame.flip st flips = .ok F ∧
      s1.1 = ⟨F, (s.1.run ops).caches⟩ ∧ q = s.1.frame.objs.length)
  error : ∀ st s e s1, prop st s = (.error e, s1) → ∃ ops : List (Op V P), (∀ op ∈ ops, op.IsLookup) ∧ s1.1 = s.1.run ops

end GC

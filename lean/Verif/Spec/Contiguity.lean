import Verif.Spec.Connect
import Verif.Spec.Assignment

/-!
# Contiguity: specification
-/

set_option linter.unusedSectionVars false
set_option autoImplicit false

namespace GC

variable {V P : Type} [LinearOrder V] [DecidableEq P]

/-- `adj` lists the neighbours of each node of `G`, in some order. -/
structure AdjDict (G : Graph V) (adj : Dict V (List V)) : Prop where
  wf : adj.WF
  keys : ∀ v, v ∈ adj.keys ↔ v ∈ G.nodes
  nbrs : ∀ v l, adj.get? v = some l → ∀ u, u ∈ l ↔ G.Adj v u

/-- Every district is nonempty and induces a connected subgraph. -/
def ContiguousPlan (G : Graph V) (a : Assignment V P) : Prop :=
  ∀ part s, a.parts.get? part = some s → ConnectedOn G s

/-- Every district is nonempty. -/
def NonemptyPlan (a : Assignment V P) : Prop := ∀ part s, a.parts.get? part = some s → s.Nonempty

end GC

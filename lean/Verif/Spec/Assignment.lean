import Verif.Model.Assignment

/-!
# Specification vocabulary for assignments
-/

set_option autoImplicit false

namespace GC

variable {V P : Type} [LinearOrder V] [DecidableEq P]

/-- The two views of an assignment describe the same function from nodes to districts. -/
structure Assignment.Coherent (a : Assignment V P) : Prop where
  parts_wf : a.parts.WF
  mapping_wf : a.mapping.WF
  /-- `v in parts[p]` exactly when `mapping[v] == p` -/
  agree : ∀ p s, a.parts.get? p = some s → ∀ v, v ∈ s ↔ a.mapping.get? v = some p
  /-- every district of the mapping is a key of `parts` -/
  complete : ∀ v p, a.mapping.get? v = some p → p ∈ a.parts.keys

/-- The assignment assigns exactly the nodes in `nodes`. -/
def Assignment.Covers (a : Assignment V P) (nodes : Finset V) : Prop :=
  ∀ v, v ∈ a.mapping.keys ↔ v ∈ nodes

/-- District contents, as a set (empty for an unknown label). -/
def Assignment.partOf (a : Assignment V P) (p : P) : Finset V := (a.parts.get? p).getD ∅

/-- `flows[p]["in"]`, empty when `p` is not a key. -/
def flowIn {α : Type} (flows : Dict P (Flow α)) (p : P) : Finset α := ((flows.get? p).getD Flow.create).inn
/-- `flows[p]["out"]`, empty when `p` is not a key. -/
def flowOut {α : Type} (flows : Dict P (Flow α)) (p : P) : Finset α := ((flows.get? p).getD Flow.create).out

end GC

import Verif.Spec.Connect
import Mathlib.Algebra.BigOperators.Group.Finset.Basic
import Mathlib.Algebra.Order.Ring.Rat
import Mathlib.Combinatorics.SimpleGraph.Acyclic

/-!
# Trees and the two sides of a tree edge

Specifications used for the tree-cutting algorithms; nothing here mentions the modelled code.
-/

set_option linter.unusedSectionVars false
set_option autoImplicit false

namespace GC

variable {V : Type} [DecidableEq V]

/-- A tree: a well-formed connected graph with one edge less than nodes. -/
structure IsTree (T : Graph V) : Prop where
  wf : T.WF
  conn : ConnectedOn T T.nodes
  card : T.edges.card + 1 = T.nodes.card

/-- `T` is a spanning tree of `G`. -/
structure IsSpanningTree (T G : Graph V) : Prop where
  tree : IsTree T
  nodes : T.nodes = G.nodes
  edges : ∀ u v, T.Adj u v → G.Adj u v

/-- The graph without the edge between `u` and `v`. -/
def Graph.cut (T : Graph V) (u v : V) : Graph V := ⟨T.nodes, T.edges.filter (fun e => e ≠ (u, v) ∧ e ≠ (v, u))⟩

theorem Graph.cut_adj {T : Graph V} {u v a b : V} :
    (T.cut u v).Adj a b ↔ T.Adj a b ∧ ¬ (a = u ∧ b = v) ∧ ¬ (a = v ∧ b = u) := by
  simp only [Graph.Adj, Graph.cut, Finset.mem_filter, ne_eq, Prod.mk.injEq]
  tauto

/-- `S` is the set of nodes that can still be reached from `u` after the edge between `u` and `v` is removed. -/
def IsSide (T : Graph V) (u v : V) (S : Finset V) : Prop := ∀ w, w ∈ S ↔ w ∈ T.nodes ∧ ReachIn (T.cut u v) T.nodes u w

/-- `S` is a side of the edge between `u` and `v`. -/
theorem IsSide.unique {T : Graph V} {u v : V} {S S' : Finset V} (h : IsSide T u v S) (h' : IsSide T u v S') : S = S' := by
  ext w; rw [h w, h' w]

/-- The population of a set of nodes. -/
def popOf (pop : V → ℚ) (S : Finset V) : ℚ := ∑ v ∈ S, pop v

/-- `x` is within `eps` (relative) of `ideal`. -/
def Near (ideal eps x : ℚ) : Prop := |x - ideal| ≤ eps * ideal

/-- strict version of `Near` -/
def NearStrict (ideal eps x : ℚ) : Prop := |x - ideal| < eps * ideal

instance (ideal eps x : ℚ) : Decidable (Near ideal eps x) := by unfold Near; infer_instance
instance (ideal eps x : ℚ) : Decidable (NearStrict ideal eps x) := by unfold NearStrict; infer_instance

end GC

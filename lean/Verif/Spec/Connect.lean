import Verif.Model.Graph
import Mathlib.Logic.Relation
import Mathlib.Combinatorics.SimpleGraph.Connectivity.Connected

/-!
# Connectivity

The specification of connectedness, and its agreement with Mathlib's `SimpleGraph`.
-/

set_option linter.unusedSectionVars false
set_option autoImplicit false

namespace GC

variable {V : Type} [DecidableEq V]

/-- one step inside `s` -/
def Within (G : Graph V) (s : Finset V) (a b : V) : Prop := G.Adj a b ∧ a ∈ s ∧ b ∈ s

/-- `b` can be reached from `a` by a path inside `s` -/
def ReachIn (G : Graph V) (s : Finset V) : V → V → Prop := Relation.ReflTransGen (Within G s)

/-- The node set `s` is nonempty and induces a connected subgraph of `G`. -/
def ConnectedOn (G : Graph V) (s : Finset V) : Prop := s.Nonempty ∧ ∀ u ∈ s, ∀ v ∈ s, ReachIn G s u v

/-- The graph as a Mathlib graph (self loops are dropped). -/
def Graph.toSimple (G : Graph V) : SimpleGraph V where
  Adj u v := u ≠ v ∧ G.Adj u v
  symm := ⟨fun _ _ h => ⟨h.1.symm, h.2.symm⟩⟩
  loopless := ⟨fun _ h => h.1 rfl⟩

/-- `ConnectedOn` is Mathlib's connectedness of the induced subgraph. -/
theorem connectedOn_iff_mathlib (G : Graph V) (s : Finset V) :
    ConnectedOn G s ↔ (G.toSimple.induce (s : Set V)).Connected := by
  constructor
  · rintro ⟨⟨x, hx⟩, h⟩
    haveI : Nonempty (s : Set V) := ⟨⟨x, hx⟩⟩
    refine SimpleGraph.Connected.mk ?_
    rintro ⟨u, hu⟩ ⟨v, hv⟩
    have := h u hu v hv
    have key : ∀ w, ReachIn G s u w → ∀ hw : w ∈ (s : Set V),
        (G.toSimple.induce (s : Set V)).Reachable ⟨u, hu⟩ ⟨w, hw⟩ := by
      intro w hr
      induction hr with
      | refl => intro _; exact SimpleGraph.Reachable.refl _
      | @tail b c hb hc ih =>
        intro hw
        have hbs : b ∈ (s : Set V) := hc.2.1
        by_cases hbc : b = c
        · subst hbc; exact ih hw
        · refine (ih hbs).trans (SimpleGraph.Adj.reachable ?_)
          exact ⟨hbc, hc.1⟩
    exact key v this hv
  · intro h
    obtain ⟨x⟩ := h.nonempty
    refine ⟨⟨x.1, x.2⟩, fun u hu v hv => ?_⟩
    obtain ⟨w⟩ := h.preconnected ⟨u, hu⟩ ⟨v, hv⟩
    have key : ∀ (a b : (s : Set V)) (_ : (G.toSimple.induce (s : Set V)).Walk a b), ReachIn G s a.1 b.1 := by
      intro a b w
      induction w with
      | nil => exact Relation.ReflTransGen.refl
      | @cons a b c hab _ ih => exact Relation.ReflTransGen.head ⟨hab.2, a.2, b.2⟩ ih
    exact key _ _ w

theorem Within.symm {G : Graph V} {s : Finset V} {a b : V} (h : Within G s a b) : Within G s b a :=
  ⟨h.1.symm, h.2.2, h.2.1⟩

theorem ReachIn.symm {G : Graph V} {s : Finset V} {a b : V} (h : ReachIn G s a b) : ReachIn G s b a := by
  induction h with
  | refl => exact Relation.ReflTransGen.refl
  | tail _ h ih => exact Relation.ReflTransGen.head h.symm ih

theorem ReachIn.trans {G : Graph V} {s : Finset V} {a b c : V} (h : ReachIn G s a b) (h' : ReachIn G s b c) :
    ReachIn G s a c := Relation.ReflTransGen.trans h h'

theorem ReachIn.mono {G : Graph V} {s t : Finset V} (hst : s ⊆ t) {a b : V} (h : ReachIn G s a b) : ReachIn G t a b :=
  Relation.ReflTransGen.mono (fun _ _ h => ⟨h.1, hst h.2.1, hst h.2.2⟩) _ _ h

theorem ReachIn.mem {G : Graph V} {s : Finset V} {a b : V} (h : ReachIn G s a b) (ha : a ∈ s) : b ∈ s := by
  induction h with
  | refl => exact ha
  | tail _ h _ => exact h.2.2

/-- A set containing `a` and closed under steps contains everything reachable from `a`. -/
theorem closed_of_reach {α : Type} {r : α → α → Prop} {C : α → Prop} {a b : α} (h : Relation.ReflTransGen r a b)
    (ha : C a) (hc : ∀ x y, C x → r x y → C y) : C b := by
  induction h with
  | refl => exact ha
  | tail _ h ih => exact hc _ _ ih h

theorem connectedOn_of_root {G : Graph V} {s : Finset V} {r : V} (hr : r ∈ s) (h : ∀ v ∈ s, ReachIn G s r v) :
    ConnectedOn G s := ⟨⟨r, hr⟩, fun u hu v hv => (h u hu).symm.trans (h v hv)⟩

/-- Connectedness only depends on the edges inside `s`. -/
theorem connectedOn_congr {G H : Graph V} {s : Finset V} (h : ∀ u ∈ s, ∀ v ∈ s, G.Adj u v ↔ H.Adj u v) :
    ConnectedOn G s ↔ ConnectedOn H s := by
  have : Within G s = Within H s := by
    funext a b
    apply propext
    exact ⟨fun x => ⟨(h a x.2.1 b x.2.2).1 x.1, x.2⟩, fun x => ⟨(h a x.2.1 b x.2.2).2 x.1, x.2⟩⟩
  unfold ConnectedOn ReachIn
  rw [this]

end GC

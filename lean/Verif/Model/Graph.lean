import Verif.Py
import Mathlib.Data.Finset.Basic
import Mathlib.Data.Finset.Prod
import Mathlib.Data.List.Sort
import Mathlib.Data.Finset.Card
import Mathlib.Data.Prod.Lex
import Mathlib.Order.Defs.LinearOrder

/-!
# Graphs

Model of the part of `networkx.Graph` / `gerrychain.graph.Graph` that the modelled functions use.
-/

set_option linter.unusedSectionVars false

set_option autoImplicit false

namespace GC

/-- Iteration over a python set (`for x in s`).  Python's order is unspecified; the model iterates in increasing
order, so that the result is a function of the set.  Only insertion orders of dictionaries and lists depend on it. -/
def iter {α : Type _} [LinearOrder α] (s : Finset α) : List α :=
  Quot.liftOn s.val (fun l => l.insertionSort (· ≤ ·)) fun a b h =>
    ((List.perm_insertionSort _ a).trans (h.trans (List.perm_insertionSort _ b).symm)).eq_of_pairwise'
      (List.pairwise_insertionSort _ a) (List.pairwise_insertionSort _ b)

theorem coe_iter {α : Type _} [LinearOrder α] (s : Finset α) : (iter s : Multiset α) = s.val := by
  obtain ⟨⟨l⟩, hl⟩ := s
  exact Quot.sound (List.perm_insertionSort _ l)

@[simp] theorem mem_iter {α : Type _} [LinearOrder α] {s : Finset α} {a : α} : a ∈ iter s ↔ a ∈ s := by
  rw [← Multiset.mem_coe, coe_iter]; rfl

theorem nodup_iter {α : Type _} [LinearOrder α] (s : Finset α) : (iter s).Nodup := by
  rw [← Multiset.coe_nodup, coe_iter]; exact s.nodup

@[simp] theorem toFinset_iter {α : Type _} [LinearOrder α] (s : Finset α) : (iter s).toFinset = s := by
  ext a; simp

theorem length_iter {α : Type _} [LinearOrder α] (s : Finset α) : (iter s).length = s.card := by
  rw [← Multiset.coe_card, coe_iter]; rfl

/-- Iteration over a set of edges (`for (u, v) in edges`), in lexicographic order; see `iter`. -/
def iterE {V : Type _} [LinearOrder V] (s : Finset (V × V)) : List (V × V) :=
  Quot.liftOn s.val (fun l => l.insertionSort (fun a b => toLex a ≤ toLex b)) fun a b h =>
    have tr : IsTrans (V × V) (fun a b => toLex a ≤ toLex b) := ⟨fun _ _ _ h h' => le_trans h h'⟩
    have as : Std.Antisymm (fun a b : V × V => toLex a ≤ toLex b) :=
      ⟨fun _ _ h h' => toLex.injective (le_antisymm h h')⟩
    have tot : Std.Total (fun a b : V × V => toLex a ≤ toLex b) := ⟨fun a b => le_total (toLex a) (toLex b)⟩
    ((List.perm_insertionSort _ a).trans (h.trans (List.perm_insertionSort _ b).symm)).eq_of_pairwise'
      (List.pairwise_insertionSort _ a) (List.pairwise_insertionSort _ b)

theorem coe_iterE {V : Type _} [LinearOrder V] (s : Finset (V × V)) : (iterE s : Multiset (V × V)) = s.val := by
  obtain ⟨⟨l⟩, hl⟩ := s
  exact Quot.sound (List.perm_insertionSort _ l)

@[simp] theorem mem_iterE {V : Type _} [LinearOrder V] {s : Finset (V × V)} {a : V × V} : a ∈ iterE s ↔ a ∈ s := by
  rw [← Multiset.mem_coe, coe_iterE]; rfl

theorem nodup_iterE {V : Type _} [LinearOrder V] (s : Finset (V × V)) : (iterE s).Nodup := by
  rw [← Multiset.coe_nodup, coe_iterE]; exact s.nodup

/-- `tuple(sorted((a, b)))` (gerrychain/updaters/flows.py:16, updaters/cut_edges.py:69 and 111). -/
def sortPair {V : Type _} [LinearOrder V] (e : V × V) : V × V := if e.1 ≤ e.2 then e else (e.2, e.1)

/-- The graph of a partition (gerrychain/graph/graph.py:53 `class Graph`, 508 `class FrozenGraph`): `nodes` is the
set of node identifiers, `edges` holds every undirected edge once, in the orientation in which networkx reports it.
Simplified: node and edge attributes are separate functions (`GraphData`). -/
structure Graph (V : Type _) where
  nodes : Finset V
  edges : Finset (V × V)

namespace Graph
variable {V : Type _} [DecidableEq V]

/-- Well-formedness guaranteed by networkx: edges join nodes of the graph, and no edge is listed in both orientations. -/
structure WF (G : Graph V) : Prop where
  fst_mem : ∀ e ∈ G.edges, e.1 ∈ G.nodes
  snd_mem : ∀ e ∈ G.edges, e.2 ∈ G.nodes
  asymm : ∀ e ∈ G.edges, e.1 ≠ e.2 → (e.2, e.1) ∉ G.edges

/-- `v in graph.neighbors(u)`; decidable adjacency of the undirected graph. -/
def Adj (G : Graph V) (u v : V) : Prop := (u, v) ∈ G.edges ∨ (v, u) ∈ G.edges

instance (G : Graph V) (u v : V) : Decidable (G.Adj u v) := by unfold Adj; infer_instance

theorem Adj.symm {G : Graph V} {u v : V} (h : G.Adj u v) : G.Adj v u := Or.symm h

/-- `graph.neighbors(u)` (networkx; gerrychain/graph/graph.py:556 caches it for `FrozenGraph`). -/
def neighbors (G : Graph V) (u : V) : Finset V := G.nodes.filter (fun v => G.Adj u v)

/-- `graph.subgraph(s)`: the induced subgraph (networkx; gerrychain/graph/graph.py:574 `FrozenGraph.subgraph`). -/
def subgraph (G : Graph V) (s : Finset V) : Graph V :=
  ⟨G.nodes ∩ s, G.edges.filter (fun e => e.1 ∈ s ∧ e.2 ∈ s)⟩

/-- `graph.degree(u)` for a graph without self loops (networkx). -/
def degree (G : Graph V) (u : V) : ℕ := (G.neighbors u).card

theorem WF.mem_of_adj {G : Graph V} (h : G.WF) {u v : V} (ha : G.Adj u v) : u ∈ G.nodes ∧ v ∈ G.nodes := by
  rcases ha with ha | ha
  · exact ⟨h.fst_mem _ ha, h.snd_mem _ ha⟩
  · exact ⟨h.snd_mem _ ha, h.fst_mem _ ha⟩

theorem mem_neighbors {G : Graph V} (h : G.WF) {u v : V} : v ∈ G.neighbors u ↔ G.Adj u v := by
  simp only [neighbors, Finset.mem_filter]
  exact ⟨And.right, fun ha => ⟨(h.mem_of_adj ha).2, ha⟩⟩

theorem WF.subgraph {G : Graph V} (h : G.WF) (s : Finset V) : (G.subgraph s).WF := by
  constructor
  · intro e he
    simp only [Graph.subgraph, Finset.mem_filter, Finset.mem_inter] at he ⊢
    exact ⟨h.fst_mem e he.1, he.2.1⟩
  · intro e he
    simp only [Graph.subgraph, Finset.mem_filter, Finset.mem_inter] at he ⊢
    exact ⟨h.snd_mem e he.1, he.2.2⟩
  · intro e he hne hmem
    simp only [Graph.subgraph, Finset.mem_filter] at he hmem
    exact h.asymm e he.1 hne hmem.1

theorem subgraph_adj {G : Graph V} {s : Finset V} {u v : V} :
    (G.subgraph s).Adj u v ↔ G.Adj u v ∧ u ∈ s ∧ v ∈ s := by
  simp only [Adj, subgraph, Finset.mem_filter]
  tauto

end Graph

section
variable {V : Type _} [LinearOrder V]

theorem sortPair_comm (a b : V) : sortPair (a, b) = sortPair (b, a) := by
  unfold sortPair
  simp only
  rcases lt_trichotomy a b with h | h | h
  · rw [if_pos h.le, if_neg (not_le.2 h)]
  · subst h; rfl
  · rw [if_neg (not_le.2 h), if_pos h.le]

theorem sortPair_eq_or (e : V × V) : sortPair e = e ∨ sortPair e = (e.2, e.1) := by
  unfold sortPair; split <;> simp

@[simp] theorem sortPair_sortPair (e : V × V) : sortPair (sortPair e) = sortPair e := by
  obtain ⟨a, b⟩ := e
  rcases sortPair_eq_or (a, b) with h | h <;> rw [h]
  · exact h
  · rw [sortPair_comm]; exact h

end

end GC

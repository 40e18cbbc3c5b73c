import Verif.Model.Heap
import Verif.Model.Constraints

/-!
# Contiguity constraints

Model of `gerrychain/constraints/contiguity.py`.
-/

set_option linter.unusedSectionVars false
set_option autoImplicit false

namespace GC

variable {V P : Type} [LinearOrder V] [DecidableEq P]

/-- Iteration order of python sets of district labels.  It is arbitrary: theorems hold for every order. -/
structure SetOrder (P : Type) where
  list : Finset P → List P
  mem : ∀ s x, x ∈ list s ↔ x ∈ s
  nodup : ∀ s, (list s).Nodup

/-- Repeat `f` until nothing changes, at most `n` times. -/
def saturate (f : Finset V → Finset V) : ℕ → Finset V → Finset V
  | 0, C => C
  | n + 1, C => if f C = C then C else saturate f n (f C)

/-- `networkx.node_connected_component(G, v)` (library function, modelled by repeatedly adding neighbours). -/
def component (G : Graph V) (v : V) : Finset V :=
  saturate (fun C => C ∪ C.biUnion G.neighbors) G.nodes.card {v}

/-- `networkx.is_connected(G)` (library function): raises on the null graph. -/
def nxIsConnected (G : Graph V) : Py Bool :=
  match iter G.nodes with
  | [] => .error .pointlessConcept
  | v :: _ => .ok (decide (component G v = G.nodes))

/-- `networkx.connected_components(G)` (library function): the components in order of their first node. -/
def connectedComponents (G : Graph V) : List (Finset V) :=
  ((iter G.nodes).foldl (fun (st : Finset V × List (Finset V)) v =>
    if v ∈ st.1 then st else (st.1 ∪ component G v, st.2 ++ [component G v])) (∅, [])).2

/-- `graph._adj` and `networkx.to_dict_of_lists(graph)`: neighbours of each node, in some order.  The functions below take
any dictionary as argument. -/
def toDictOfLists (G : Graph V) : Dict V (List V) := ⟨(iter G.nodes).map (fun v => (v, iter (G.neighbors v)))⟩

/-- One pop of the `while` loop of `_bfs` (constraints/contiguity.py:265-272): marks unseen neighbours and queues them. -/
def bfsVisit (neighbors : List V) (q : List V) (visited : Finset V) : List V × Finset V :=
  neighbors.foldl (fun (st : List V × Finset V) n => if n ∈ st.2 then st else (st.1 ++ [n], insert n st.2)) (q, visited)

/-- The `while` loop of `_bfs` (constraints/contiguity.py:264-272); `none`: not finished. -/
def bfsLoop (adj : Dict V (List V)) : ℕ → List V → Finset V → Option (Py (Finset V))
  | _, [], visited => some (.ok visited)
  | 0, _ :: _, _ => none
  | fuel + 1, current :: q, visited =>
    match adj.get current with
    | .error e => some (.error e)
    | .ok neighbors =>
      let st := bfsVisit neighbors q visited
      bfsLoop adj fuel st.1 st.2

/-- `_bfs(graph)` (constraints/contiguity.py:244-274): `next(iter(graph))` raises `StopIteration` on an empty dictionary. -/
def bfs (fuel : ℕ) (adj : Dict V (List V)) : Option (Py Bool) :=
  match adj.keys with
  | [] => some (.error .stopIteration)
  | start :: _ =>
    if adj.keys.length ≤ 1 then some (.ok true)
    else match bfsLoop adj fuel [start] ∅ with
      | none => none
      | some (.error e) => some (.error e)
      | some (.ok visited) => some (.ok (decide (adj.keys.length = visited.card)))

/-- An entry of the heap in `are_reachable`: distance, counter, node. -/
abbrev HeapEntry (V : Type) := ℕ × ℕ × V

/-- `heappop`: remove the smallest entry; the counter makes entries distinct before nodes are compared. -/
def heapPop : List (HeapEntry V) → Option (HeapEntry V × List (HeapEntry V))
  | [] => none
  | x :: xs => match heapPop xs with
    | none => some (x, [])
    | some (y, ys) =>
      if x.1 < y.1 ∨ (x.1 = y.1 ∧ x.2.1 ≤ y.2.1) then some (x, xs) else some (y, x :: ys)

/-- Variables of the loop of `are_reachable` (constraints/contiguity.py:39-47). -/
structure ReachState (V : Type) where
  dist : Dict V ℕ
  seen : Dict V ℕ
  count : ℕ
  fringe : List (HeapEntry V)

/-- `u not in seen or vu_dist < seen[u]` (constraints/contiguity.py:59). -/
def shouldPush (seen : Dict V ℕ) (u : V) (vuDist : ℕ) : Bool :=
  match seen.get? u with
  | none => true
  | some old => decide (vuDist < old)

/-- The `for u, e in G_succ[v].items()` loop of `are_reachable` (constraints/contiguity.py:54-61). -/
def reachVisit (avoid : V → V → Bool) (v : V) (d : ℕ) (succ : List V) (st : ReachState V) : ReachState V :=
  succ.foldl (fun st u =>
    if avoid v u then st
    else if shouldPush st.seen u (d + 1) then
      { st with seen := st.seen.set u (d + 1), count := st.count + 1, fringe := (d + 1, st.count, u) :: st.fringe }
    else st) st

/-- `all(t in seen for t in targets)`. -/
def allSeen (seen : Dict V ℕ) (targets : List V) : Bool := targets.all (fun t => seen.contains t)

/-- The `while` loop of `are_reachable` (constraints/contiguity.py:49-61). -/
def reachLoop (adj : Dict V (List V)) (avoid : V → V → Bool) (targets : List V) : ℕ → ReachState V → Option (Py (ReachState V))
  | fuel, st =>
    if allSeen st.seen targets then some (.ok st)
    else match heapPop st.fringe with
      | none => some (.ok st)
      | some ((d, _, v), rest) =>
        match fuel with
        | 0 => none
        | fuel + 1 =>
          if st.dist.contains v then reachLoop adj avoid targets fuel { st with fringe := rest }
          else match adj.get v with
            | .error e => some (.error e)
            | .ok succ =>
              reachLoop adj avoid targets fuel (reachVisit avoid v d succ { st with dist := st.dist.set v d, fringe := rest })

/-- `are_reachable(G, source, avoid, targets)` (constraints/contiguity.py:11-63).  `avoid` is the test on an edge; its third
argument (the edge attributes) is determined by the edge. -/
def areReachable (fuel : ℕ) (adj : Dict V (List V)) (source : V) (avoid : V → V → Bool) (targets : List V) : Option (Py Bool) :=
  match reachLoop adj avoid targets fuel ⟨Dict.empty, Dict.empty.set source 0, 1, [(0, 0, source)]⟩ with
  | none => none
  | some (.error e) => some (.error e)
  | some (.ok st) => some (.ok (allSeen st.seen targets))

/-- `affected_parts(partition)` (constraints/contiguity.py:141-166), in iteration order. -/
def affectedParts (ord : SetOrder P) (F : Frame V P) (v : View V P) : Py (List P) :=
  match v.flips with
  | none => .ok v.assignment.parts.keys
  | some flips =>
    match v.parent with
    | none => .ok (ord.list flips.values.toFinset)
    | some q =>
      match F.view q with
      | none => .error .attributeError
      | some w => do
        let s ← flips.entries.foldlM (fun (s : Finset P) e => do
          let old ← w.assignment.mapping.get e.1
          return insert old (insert e.2 s)) ∅
        return ord.list s

/-- `partition.subgraphs[part]` (partition/subgraphs.py:36-48); the cache of subgraphs is not modelled here (see C92) since the parts of a
partition never change (C08). -/
def subgraphOf (G : Graph V) (a : Assignment V P) (part : P) : Py (Graph V) := do
  let s ← a.parts.get part
  return G.subgraph s

/-- `all(f(x) for x in xs)` with short-circuit and exceptions. -/
def pyAll {α : Type} (f : α → Py Bool) : List α → Py Bool
  | [] => .ok true
  | x :: xs => do
    let b ← f x
    if b then pyAll f xs else .ok false

/-- `contiguous(partition)` (constraints/contiguity.py:169-181). -/
def contiguous (ord : SetOrder P) (F : Frame V P) (p : ℕ) : Py Bool :=
  match F.view p with
  | none => .error .attributeError
  | some v => do
    let parts ← affectedParts ord F v
    pyAll (fun part => do
      let g ← subgraphOf F.data.graph v.assignment part
      nxIsConnected g) parts

/-- `contiguous_bfs(partition)` (constraints/contiguity.py:184-204); `adj part` is `nx.to_dict_of_lists` of the district.
`none`: not finished. -/
def contiguousBfs (fuel : ℕ) (ord : SetOrder P) (adj : P → Dict V (List V)) (F : Frame V P) (p : ℕ) : Option (Py Bool) :=
  match F.view p with
  | none => some (.error .attributeError)
  | some v => match affectedParts ord F v with
    | .error e => some (.error e)
    | .ok parts => go parts
where
  /-- the loop over the parts -/
  go : List P → Option (Py Bool)
    | [] => some (.ok true)
    | part :: parts => match bfs fuel (adj part) with
      | none => none
      | some (.error e) => some (.error e)
      | some (.ok false) => some (.ok false)
      | some (.ok true) => go parts

/-- The loop of `single_flip_contiguous` over the flipped nodes (constraints/contiguity.py:111-134); `draw n` is the random
index used by `random.choice` for node `n`. -/
def singleFlipLoop (fuel : ℕ) (adj : Dict V (List V)) (old new : Dict V P) (draw : V → ℕ) : List V → Option (Py Bool)
  | [] => some (.ok true)
  | n :: ns =>
    match old.get n with
    | .error e => some (.error e)
    | .ok oldPart =>
      match adj.get n with
      | .error e => some (.error e)
      | .ok neighbors =>
        let oldNeighbors := neighbors.filter (fun m => new.get? m = some oldPart)
        match oldNeighbors[draw n % oldNeighbors.length]? with
        | none => some (.ok false)
        | some start =>
          match areReachable fuel adj start (fun a b => decide (new.get? a ≠ new.get? b)) oldNeighbors with
          | none => none
          | some (.error e) => some (.error e)
          | some (.ok false) => some (.ok false)
          | some (.ok true) => singleFlipLoop fuel adj old new draw ns

/-- `single_flip_contiguous(partition)` (constraints/contiguity.py:66-138). -/
def singleFlipContiguous (fuel : ℕ) (ord : SetOrder P) (adj : Dict V (List V)) (draw : V → ℕ) (F : Frame V P) (p : ℕ) :
    Option (Py Bool) :=
  match F.view p with
  | none => some (.error .attributeError)
  | some v =>
    match v.flips, (F.truthyParent v).bind F.view with
    | some flips, some w =>
      if flips.entries.isEmpty then some (contiguous ord F p)
      else singleFlipLoop fuel adj w.assignment.mapping v.assignment.mapping draw flips.keys
    | _, _ => some (contiguous ord F p)

/-- `number_of_contiguous_parts(partition)` (constraints/contiguity.py:207-217). -/
def numberOfContiguousParts (F : Frame V P) (p : ℕ) : Py ℕ :=
  match F.view p with
  | none => .error .attributeError
  | some v => v.assignment.parts.keys.foldlM (fun (n : ℕ) part => do
      let g ← subgraphOf F.data.graph v.assignment part
      let b ← nxIsConnected g
      return if b then n + 1 else n) 0

/-- `no_more_discontiguous` (constraints/contiguity.py:223): a module-level `SelfConfiguringLowerBound` with the default
`epsilon = 0.05` (constraints/bounds.py:143). -/
def noMoreDiscontiguous (F : Frame V P) (bound : Option ℚ) (p : ℕ) : Py (Option ℚ × Bool) := do
  let n ← numberOfContiguousParts F p
  return selfLowerCall (1 / 20) bound n

/-- `contiguous_components(partition)` (constraints/contiguity.py:226-241): the node sets of the components. -/
def contiguousComponents (F : Frame V P) (p : ℕ) : Py (Dict P (List (Finset V))) :=
  match F.view p with
  | none => .error .attributeError
  | some v => do
    let es ← v.assignment.parts.keys.mapM (fun part => do
      let g ← subgraphOf F.data.graph v.assignment part
      return (part, connectedComponents g))
    return ⟨es⟩

end GC

import Verif.Model.Bipartition

/-!
# Recursive seed plans

Model of `gerrychain/tree.py` lines 1088-1438.
-/

set_option linter.unusedSectionVars false
set_option autoImplicit false

namespace GC

/-- `while n % i == 0: if i <= ceil: largest_factor = i; n //= i` (gerrychain/tree.py:1215-1217 with `ceil` at least 2 and
1221-1224); `none` when the fuel does not suffice -/
def divideOut (ceil i : ℕ) : ℕ → ℕ → Option ℕ → Option (ℕ × Option ℕ)
  | 0, _, _ => none
  | k + 1, n, largest =>
    if n % i = 0 then divideOut ceil i k (n / i) (if i ≤ ceil then some i else largest) else some (n, largest)

/-- the loop over odd `i` (gerrychain/tree.py:1219-1225) -/
def oddLoop (ceil : ℕ) : ℕ → ℕ → ℕ → Option ℕ → Option (ℕ × Option ℕ)
  | 0, _, _, _ => none
  | k + 1, i, n, largest =>
    if i * i ≤ n then
      match divideOut ceil i (n + 1) n largest with
      | none => none
      | some (n', largest') => oddLoop ceil k (i + 2) n' largest'
    else some (n, largest)

/-- the loop for 2 (gerrychain/tree.py:1215-1217), which does not look at `ceil` -/
def divideTwo : ℕ → ℕ → Option ℕ → Option (ℕ × Option ℕ)
  | 0, _, _ => none
  | k + 1, n, largest => if n % 2 = 0 then divideTwo k (n / 2) (some 2) else some (n, largest)

/-- `get_max_prime_factor_less_than` (gerrychain/tree.py:1197-1230); the outer `none` stands for an endless loop, the inner
one for python's `None` -/
def maxPrimeFactor (n ceil : ℤ) : Option (Option ℕ) :=
  if n ≤ 1 ∨ ceil ≤ 1 then some none
  else
    match divideTwo (n.toNat + 1) n.toNat none with
    | none => none
    | some (n1, largest1) =>
      match oddLoop ceil.toNat (n.toNat + 1) 3 n1 largest1 with
      | none => none
      | some (n2, largest2) => some (if n2 > 1 ∧ n2 ≤ ceil.toNat then some n2 else largest2)

variable {V : Type} [LinearOrder V] {S : Type}

/-- `for node in nodes: flips[node] = part` -/
def setAll {P : Type} (flips : Dict V P) (nodes : Finset V) (part : P) : Dict V P :=
  (iter nodes).foldl (fun d v => d.set v part) flips

/-- the loop over `parts[:-1]` of `get_seed_chunks` (gerrychain/tree.py:1149-1169): `k` parts are left, the next one is `i`, the
last one is `last` -/
def chunkLoop (method : Method V S) (G : Graph V) (target eps : ℚ) (last : ℕ) : ℕ → ℕ → Dict V ℕ → Finset V →
    M S (Dict V ℕ × Finset V)
  | 0, _, flips, remaining => pure (flips, remaining)
  | k + 1, i, flips, remaining => do
    let r ← method (G.subgraph remaining) target eps true
    let nodes ← M.lift (notNone r)
    chunkLoop method G target eps last k (i + 1) (setAll (setAll flips nodes i) (remaining \ nodes) last) (remaining \ nodes)

/-- `new_new_epsilon` (gerrychain/tree.py:1141-1147) -/
def chunkEpsilon (target newEps : ℚ) (left : ℕ) (chunkTarget : ℚ) : Py ℚ :=
  let minPop := target * (1 - newEps) * left
  let maxPop := target * (1 + newEps) * left
  let diff := min (maxPop - chunkTarget) (chunkTarget - minPop)
  if chunkTarget = 0 then .error .zeroDivision else .ok (diff / chunkTarget)

/-- the test of the last chunk (gerrychain/tree.py:1171-1186) -/
def lastChunkOk (target eps : ℚ) (left : ℕ) (partPop : ℚ) : Bool :=
  let asDist := partPop / left
  let fake := if left = 1 then |eps| else |eps| / 2
  !(decide (asDist < target * (1 - fake))) && !(decide (target * (1 + fake) < asDist))

/-- `chunks` (gerrychain/tree.py:1188-1192): the nodes of every part, in the order of first occurrence -/
def groupChunks (flips : Dict V ℕ) : Dict ℕ (List V) :=
  flips.entries.foldl (fun d e => d.modifyD e.2 [] (· ++ [e.1])) Dict.empty

/-- the loop `while True` of `get_seed_chunks` (gerrychain/tree.py:1135-1194) with the grouping after it -/
def seedChunksLoop (method : Method V S) (G : Graph V) (pop : V → ℚ) (numChunks left : ℕ) (target eps : ℚ) :
    ℕ → ℚ → M S (List (List V))
  | 0, _ => M.raise .outOfFuel
  | fuel + 1, newEps => do
    let chunkTarget := ((iter G.nodes).map pop).sum / numChunks
    let e ← M.lift (chunkEpsilon target newEps left chunkTarget)
    let (flips, remaining) ← chunkLoop method G chunkTarget e (numChunks - 1) (numChunks - 1) 0 Dict.empty G.nodes
    if lastChunkOk target eps left ((iter remaining).map pop).sum then pure (groupChunks flips).values
    else seedChunksLoop method G pop numChunks left target eps fuel (newEps / 2)

/-- `get_seed_chunks` (gerrychain/tree.py:1088-1194), called with `one_sided_cut=True` built into the method (1356);
`numChunks` is at least 2 and divides `numDists` in every call -/
def seedChunks (method : Method V S) (fuel : ℕ) (G : Graph V) (pop : V → ℚ) (numChunks numDists : ℕ) (target eps : ℚ) :
    M S (List (List V)) :=
  let left := numDists / numChunks
  if left * numChunks = 0 then M.raise .zeroDivision
  else seedChunksLoop method G pop numChunks left target eps fuel (if left = 1 then eps else eps / ((left * numChunks : ℕ) : ℚ))

/-- the choice of `num_chunks` (gerrychain/tree.py:1296-1306) -/
def chooseChunks (n ceil : Option ℤ) (numDists : ℕ) : Py (Option ℕ) :=
  match n with
  | none =>
    match ceil with
    | none => match maxPrimeFactor numDists numDists with
      | none => .error .outOfFuel
      | some r => .ok r
    | some c =>
      if c ≥ 2 then match maxPrimeFactor numDists c with
        | none => .error .outOfFuel
        | some r => .ok r
      else .error .valueError
  | some n => if n > 1 then .ok (some n.toNat) else .error .valueError

/-- `set(nodes)` and `remaining_nodes -= nodes` on the result of the method: `TypeError` for `None`
(gerrychain/tree.py:1322, 1335) -/
def asSet (x : Option (Finset V)) : Py (Finset V) :=
  match x with
  | some s => .ok s
  | none => .error .typeError

/-- `[f(x) for x in l]` with effects -/
def mapML {α β : Type} (f : α → M S β) : List α → M S (List β)
  | [] => pure []
  | a :: l => do
    let b ← f a
    let bs ← mapML f l
    pure (b :: bs)

/-- `recursive_seed_part_inner` (gerrychain/tree.py:1233-1373).  `chunkFuel` bounds the attempts in `get_seed_chunks`, the first
argument of the recursion its depth.  Simplified: `num_dists` is a natural number; for zero districts (an empty list of
parts) python bites off districts until something fails, the model raises at once. -/
def seedInner (method : Method V S) (chunkFuel : ℕ) (pop : V → ℚ) (target eps : ℚ) (n ceil : Option ℤ) :
    ℕ → Graph V → ℕ → M S (List (Finset V))
  | 0, _, _ => M.raise .outOfFuel
  | fuel + 1, G, numDists => do
    let numChunks ← M.lift (chooseChunks n ceil numDists)
    if numDists = 0 then M.raise .recursionError
    else if numDists = 1 then pure [G.nodes]
    else if numDists = 2 then do
      let r ← method G target eps false
      let nodes ← M.lift (asSet r)
      pure [nodes, G.nodes \ nodes]
    else match numChunks with
      | none => do
        let r ← method (G.subgraph G.nodes) target eps true
        let nodes ← M.lift (asSet r)
        let rest ← seedInner method chunkFuel pop target eps n ceil fuel (G.subgraph (G.nodes \ nodes)) (numDists - 1)
        pure (nodes :: rest)
      | some m =>
        if numDists % m ≠ 0 then do
          let r ← method (G.subgraph G.nodes) target eps true
          let nodes ← M.lift (asSet r)
          let rest ← seedInner method chunkFuel pop target eps n ceil fuel (G.subgraph (G.nodes \ nodes)) (numDists - 1)
          pure (nodes :: rest)
        else do
          let chunks ← seedChunks method chunkFuel G pop m numDists target eps
          let parts ← mapML (fun c => seedInner method chunkFuel pop target eps n ceil fuel (G.subgraph c.toFinset) (numDists / m))
            chunks
          pure parts.flatten

/-- the labelling of the districts (gerrychain/tree.py:1435-1437); `IndexError` when there are more districts than labels -/
def labelDistricts {P : Type} : List (Finset V) → List P → Dict V P → Py (Dict V P)
  | [], _, flips => .ok flips
  | D :: rest, p :: ps, flips => labelDistricts rest ps (setAll flips D p)
  | D :: rest, [], flips => if (D :: rest).all (fun D => D = ∅) then .ok flips else .error .indexError

/-- `recursive_seed_part` (gerrychain/tree.py:1376-1438) -/
def recursiveSeedPart {P : Type} (method : Method V S) (chunkFuel fuel : ℕ) (G : Graph V) (parts : List P) (pop : V → ℚ)
    (target eps : ℚ) (n ceil : Option ℤ) : M S (Dict V P) := do
  let assignment ← seedInner method chunkFuel pop target eps n ceil fuel G parts.length
  M.lift (labelDistricts assignment parts Dict.empty)

end GC

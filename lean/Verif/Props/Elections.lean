import Verif.Lemmas.Elections

/-!
# C96: whose votes an election reports

An `Election` should report the votes of the graph that the partition lies on.  `DataTally` reads its column from the graph of the first
partition that it is evaluated on, and keeps what it read.  So the results of every partition are the sums of the *remembered* votes
(`C96_remembered`), which never change again (`C96_never_forgets`): they are right as long as all graphs agree on the columns and nobody
changes them (`C96_partial`), and wrong on a second graph with other votes (`C96_second_graph_violation`) or after the votes have been corrected
(`C96_corrected_votes_violation`).  All this needs the election to be registered under its alias: otherwise lookups on children fail
(`C96_unregistered_alias`) or mix two elections (`C96_other_election_violation`).
-/

set_option linter.unusedSectionVars false
set_option autoImplicit false

namespace GC

variable {V P : Type} [LinearOrder V] [DecidableEq P]

/-- **C96.** Every result that a partition reports for an election is the result of the votes that the election remembers: in any history (partitions on any graphs,
flips, lookups in any order, changes of attributes, parents erased), if elections are registered under their alias (and possibly other names too), a lookup that
succeeds returns, for each party and each district, the sum of the remembered votes in the district, and the totals over the parties; and the election remembers the votes of each party
at every node. -/
theorem C96_remembered (nodes : ℕ → Finset V) (attr : ℕ → V → String → Option ℚ) (elecs : List (Elec V)) (ops : List (ElecOp V P))
    (hops : ∀ op ∈ ops, op.Good elecs) {limit : ℕ} {name : String} {p : ℕ} {r : ElectionVal P} {s' : ElecWorld V P}
    (h : electionItem limit name p ((ElecWorld.start nodes attr elecs).run ops) = (.ok r, s')) :
    ∃ o i e, s'.objs[p]? = some o ∧ o.updaters.get? name = some i ∧ s'.elecs[i]? = some e ∧
      (∀ party ∈ e.parties, ∃ d, e.tallies.get? party = some (.values d) ∧ ∀ v ∈ o.plan.mapping.keys, v ∈ d.keys) ∧
      ResultsOf e.parties e.held o.plan r := by
  have hinv := elec_run_inv (ElecWorld.start nodes attr elecs) ops (elec_start_inv nodes attr elecs) hops
  obtain ⟨h1, h2⟩ := electionItem_inv limit name p _ hinv
  rw [h] at h1 h2
  obtain ⟨o, i, e, k1, k2, k3, k4, k5⟩ := h1.cached p name r (h2 r rfl)
  exact ⟨o, i, e, k1, k2, k3, k4, k5⟩

/-- **C96.** What an election has read, it keeps for ever, whatever happens. -/
theorem C96_never_forgets (s : ElecWorld V P) (ops : List (ElecOp V P)) {i : ℕ} {e : Elec V} {party : String} {d : Dict V ℚ}
    (he : s.elecs[i]? = some e) (hd : e.tallies.get? party = some (.values d)) :
    ∃ e', (s.run ops).elecs[i]? = some e' ∧ e'.tallies.get? party = some (.values d) := by
  obtain ⟨e', h1, -, -, h4⟩ := (run_elecs s ops).keeps i e he
  exact ⟨e', h1, h4 party d hd⟩

/-- **C96.** The first graph wins: once the election has read the votes of a party, the results of all partitions – old and new, on any graph – are sums of these votes. -/
theorem C96_first_graph_wins (nodes : ℕ → Finset V) (attr : ℕ → V → String → Option ℚ) (elecs : List (Elec V)) (ops ops' : List (ElecOp V P))
    (hops : ∀ op ∈ ops ++ ops', op.Good elecs) {limit : ℕ} {name : String} {p i : ℕ} {r : ElectionVal P} {s' : ElecWorld V P} {e : Elec V} {o : ElecObj V P}
    {party : String} {d : Dict V ℚ} (he : ((ElecWorld.start nodes attr elecs : ElecWorld V P).run ops).elecs[i]? = some e) (hp : party ∈ e.parties)
    (hd : e.tallies.get? party = some (.values d))
    (h : electionItem limit name p ((ElecWorld.start nodes attr elecs).run (ops ++ ops')) = (.ok r, s'))
    (ho : s'.objs[p]? = some o) (hi : o.updaters.get? name = some i) :
    ∃ t, r.totalsForParty.get? party = some t ∧ ∀ k ∈ o.plan.parts.keys, t.get? k = some ((∑ v ∈ o.plan.partOf k, (d.get? v).getD 0 : ℚ) : Num) := by
  obtain ⟨o', i', e', h1, h2, h3, h4, h5⟩ := C96_remembered nodes attr elecs (ops ++ ops') hops h
  rw [ho] at h1; cases h1
  rw [hi] at h2; cases h2
  have hrun : (ElecWorld.start nodes attr elecs : ElecWorld V P).run (ops ++ ops') = ((ElecWorld.start nodes attr elecs : ElecWorld V P).run ops).run ops' := by
    unfold ElecWorld.run; rw [List.foldl_append]
  rw [hrun] at h
  have hl := (run_elecs ((ElecWorld.start nodes attr elecs : ElecWorld V P).run ops) ops').trans
    (electionItem_ext limit name p (((ElecWorld.start nodes attr elecs : ElecWorld V P).run ops).run ops')).later
  rw [h] at hl
  obtain ⟨e'', k1, -, k3, k4⟩ := hl.keeps i e he
  rw [h3] at k1; cases k1
  obtain ⟨t, t1, -, t3⟩ := h5.votes party (by rw [k3]; exact hp)
  refine ⟨t, t1, fun k hk => ?_⟩
  rw [t3 k hk]
  unfold Elec.held
  rw [k4 party d hd]

/-! ## When all graphs agree -/

theorem readColumn_ok {nodes : Finset V} {attr : V → String → Option ℚ} {c : String} {d : Dict V ℚ} (h : readColumn nodes attr c = .ok d) :
    ∀ v, d.get? v = if v ∈ nodes then attr v c else none := by
  unfold readColumn at h
  have key : ∀ (l : List V) (d0 d : Dict V ℚ), l.foldlM (fun (d : Dict V ℚ) v => match attr v c with
      | some x => (.ok (d.set v x) : Py (Dict V ℚ))
      | none => .error .keyError) d0 = .ok d → ∀ v, d.get? v = if v ∈ l then attr v c else d0.get? v := by
    intro l
    induction l with
    | nil => intro d0 d h v; cases h; simp
    | cons a l ih =>
      intro d0 d h v
      rw [List.foldlM_cons, Py.bind_eq_ok] at h
      obtain ⟨d1, h1, h2⟩ := h
      rcases hx : attr a c with _ | x
      · rw [hx] at h1; cases h1
      · rw [hx] at h1
        cases h1
        rw [ih _ _ h2 v]
        by_cases hv : v ∈ l
        · simp [hv]
        · rw [if_neg hv]
          by_cases hva : v = a
          · subst hva
            rw [Dict.get?_set_self, if_pos (List.mem_cons_self ..), hx]
          · rw [Dict.get?_set_ne _ _ hva, if_neg (by simp [hva, hv])]
  intro v
  rw [key _ _ _ h v]
  by_cases hv : v ∈ nodes
  · rw [if_pos hv, if_pos (by simpa using hv)]
  · rw [if_neg hv, if_neg (by simpa using hv)]; rfl

/-- some election is to read the column `c` -/
def UsedColumn (elecs : List (Elec V)) (c : String) : Prop := ∃ e ∈ elecs, ∃ party, e.tallies.get? party = some (.column c)

/-- the votes for `party` at `v` according to the graph `g` (or to the dictionary given to the election) -/
def votesOn (attr : ℕ → V → String → Option ℚ) (g : ℕ) (e : Elec V) (party : String) (v : V) : ℚ :=
  match e.tallies.get? party with
  | some (.column c) => (attr g v c).getD 0
  | some (.values d) => (d.get? v).getD 0
  | none => 0

/-- nobody changes the columns of the elections, and partitions are made only on graphs `gs` -/
def ElecOp.Steady (elecs : List (Elec V)) (gs : ℕ → Prop) : ElecOp V P → Prop
  | .setAttr _ _ name _ => ¬ UsedColumn elecs name
  | .create g _ _ => gs g
  | _ => True

/-- everything that elections remember was read from graphs `gs` as they were in the beginning -/
structure Sourced (nodes : ℕ → Finset V) (attr : ℕ → V → String → Option ℚ) (elecs : List (Elec V)) (gs : ℕ → Prop) (s : ElecWorld V P) : Prop where
  sameNodes : s.nodes = nodes
  sameAttr : ∀ g v c, UsedColumn elecs c → s.attr g v c = attr g v c
  graphs : ∀ o ∈ s.objs, gs o.graph
  read : ∀ (i : ℕ) (e : Elec V), elecs[i]? = some e → ∃ e', s.elecs[i]? = some e' ∧ ElecExt nodes attr gs e e'

theorem readColumn_congr {nodes : Finset V} {attr attr' : V → String → Option ℚ} {c : String} (h : ∀ v, attr v c = attr' v c) :
    readColumn nodes attr c = readColumn nodes attr' c := by
  unfold readColumn
  congr 1
  funext d v
  rw [h v]

theorem Sourced.lookup {nodes : ℕ → Finset V} {attr : ℕ → V → String → Option ℚ} {elecs : List (Elec V)} {gs : ℕ → Prop} {s s' : ElecWorld V P}
    (hs : Sourced nodes attr elecs gs s) (h : LookupExt s s') : Sourced nodes attr elecs gs s' := by
  refine ⟨h.nodes.trans hs.sameNodes, ?_, ?_, ?_⟩
  · intro g v c hc; rw [h.attr]; exact hs.sameAttr g v c hc
  · rw [h.objs]; exact hs.graphs
  · intro i e he
    obtain ⟨e', h1, h2⟩ := hs.read i e he
    obtain ⟨e'', h3, h4⟩ := h.elecs i e' h1
    refine ⟨e'', h3, h4.1.trans h2.1, h4.2.trans h2.2, fun p d hd => h4.3 p d (h2.3 p d hd), ?_, fun p hp => h4.5 p (h2.5 p hp)⟩
    intro p c hc
    rcases h2.4 p c hc with k | ⟨g, d, k1, k2, k3⟩
    · rcases h4.4 p c k with k | ⟨g, d, ⟨o, ho, rfl⟩, k2, k3⟩
      · exact Or.inl k
      · refine Or.inr ⟨o.graph, d, hs.graphs o ho, ?_, k3⟩
        rw [← k2, hs.sameNodes]
        exact readColumn_congr (fun v => (hs.sameAttr o.graph v c ⟨e, List.mem_of_getElem? he, p, hc⟩).symm)
    · exact Or.inr ⟨g, d, k1, k2, h4.3 p d k3⟩

theorem Sourced.step {nodes : ℕ → Finset V} {attr : ℕ → V → String → Option ℚ} {elecs : List (Elec V)} {gs : ℕ → Prop} {s : ElecWorld V P}
    (hs : Sourced nodes attr elecs gs s) {op : ElecOp V P} (hop : op.Steady elecs gs) : Sourced nodes attr elecs gs (s.step op) := by
  rcases op with ⟨g, v, n, x⟩ | ⟨g, d, ups⟩ | ⟨p, flips⟩ | ⟨limit, name, p⟩ | p
  · refine ⟨hs.1, ?_, hs.3, hs.4⟩
    intro g' v' c hc
    show (if g' = g ∧ v' = v ∧ c = n then some x else s.attr g' v' c) = _
    rw [if_neg (by rintro ⟨-, -, rfl⟩; exact hop hc)]
    exact hs.sameAttr g' v' c hc
  · unfold ElecWorld.step
    rcases h : s.create g d ups with err | s'
    · simp only [h]; exact hs
    · simp only [h]
      obtain ⟨a, -, -, rfl⟩ := create_shape h
      refine ⟨hs.1, hs.2, ?_, hs.4⟩
      intro o ho
      rcases List.mem_append.1 ho with ho | ho
      · exact hs.graphs o ho
      · simp at ho; subst ho; exact hop
  · unfold ElecWorld.step
    rcases h : s.flip p flips with err | s'
    · simp only [h]; exact hs
    · simp only [h]
      obtain ⟨o, flows, b, ho, -, -, rfl⟩ := flip_shape h
      refine ⟨hs.1, hs.2, ?_, hs.4⟩
      intro o' ho'
      rcases List.mem_append.1 ho' with ho' | ho'
      · exact hs.graphs o' ho'
      · simp at ho'; subst ho'; exact hs.graphs o (List.mem_of_getElem? ho)
  · exact hs.lookup (electionItem_ext limit name p s)
  · refine ⟨hs.1, hs.2, ?_, hs.4⟩
    intro o ho
    obtain ⟨q, hq⟩ := List.mem_iff_getElem?.1 ho
    unfold ElecWorld.step ElecWorld.erase at hq
    simp only at hq
    rw [List.getElem?_modify] at hq
    rcases hx : s.objs[q]? with _ | x
    · rw [hx] at hq; simp at hq
    · rw [hx] at hq
      have hm := hs.graphs x (List.mem_of_getElem? hx)
      by_cases hpq : p = q
      · simp [hpq] at hq; rw [← hq]; exact hm
      · simp [hpq] at hq; rw [← hq]; exact hm

theorem Sourced.run {nodes : ℕ → Finset V} {attr : ℕ → V → String → Option ℚ} {elecs : List (Elec V)} {gs : ℕ → Prop} {s : ElecWorld V P}
    (hs : Sourced nodes attr elecs gs s) {ops : List (ElecOp V P)} (hops : ∀ op ∈ ops, op.Steady elecs gs) :
    Sourced nodes attr elecs gs (s.run ops) := by
  induction ops generalizing s with
  | nil => exact hs
  | cons op ops ih => exact ih (hs.step (hops op (List.mem_cons_self ..))) (fun o ho => hops o (List.mem_cons_of_mem _ ho))

theorem mem_partOf_mapping {a : Assignment V P} (ha : a.Coherent) {k : P} {v : V} (h : v ∈ a.partOf k) : v ∈ a.mapping.keys :=
  Dict.mem_keys_iff.2 ⟨k, (ha.mem_partOf _ _).1 h⟩

/-- **C96 (partial).** If the graphs on which partitions are made agree on the columns of the elections at the nodes they share, and nobody changes these columns, then every
result reported is the result of the votes of the partition's own graph.  (Missing: graphs that disagree, for which the claim is false – `C96_second_graph_violation` –, changes of
the columns, `C96_corrected_votes_violation`, and elections that are not registered under their alias.) -/
theorem C96_partial (nodes : ℕ → Finset V) (attr : ℕ → V → String → Option ℚ) (elecs : List (Elec V)) (ops : List (ElecOp V P)) (gs : ℕ → Prop)
    (hops : ∀ op ∈ ops, op.Good elecs) (hsteady : ∀ op ∈ ops, op.Steady elecs gs)
    (hagree : ∀ g g', gs g → gs g' → ∀ v ∈ nodes g, v ∈ nodes g' → ∀ c, UsedColumn elecs c → attr g v c = attr g' v c)
    {limit : ℕ} {name : String} {p : ℕ} {r : ElectionVal P} {s' : ElecWorld V P}
    (h : electionItem limit name p ((ElecWorld.start nodes attr elecs).run ops) = (.ok r, s')) :
    ∃ o i e, s'.objs[p]? = some o ∧ o.updaters.get? name = some i ∧ elecs[i]? = some e ∧ ResultsOf e.parties (votesOn attr o.graph e) o.plan r := by
  have hinv := elec_run_inv (ElecWorld.start nodes attr elecs) ops (elec_start_inv nodes attr elecs) hops
  have hinv' := (electionItem_inv limit name p _ hinv).1
  have hsrc : Sourced nodes attr elecs gs (ElecWorld.start nodes attr elecs : ElecWorld V P) :=
    ⟨rfl, fun _ _ _ _ => rfl, (fun o ho => by cases ho), fun i e he => ⟨e, he, ElecExt.refl e⟩⟩
  have hsrc' := (hsrc.run hsteady).lookup (electionItem_ext limit name p _)
  have hlen := ((run_elecs (ElecWorld.start nodes attr elecs : ElecWorld V P) ops).trans (electionItem_ext limit name p _).later).len
  rw [h] at hinv' hsrc' hlen
  obtain ⟨o, i, e', h1, h2, h3, h4, h5⟩ := C96_remembered nodes attr elecs ops hops h
  have hi : i < elecs.length := by
    have := (List.getElem?_eq_some_iff.1 h3).1
    rw [hlen] at this; exact this
  obtain ⟨e'', k1, k2⟩ := hsrc'.read i _ (List.getElem?_eq_getElem hi)
  rw [h3] at k1; cases k1
  refine ⟨o, i, elecs[i], h1, h2, List.getElem?_eq_getElem hi, ?_⟩
  have hpar : e'.parties = elecs[i].parties := k2.parties
  rw [hpar] at h5 h4
  refine h5.congr ?_
  intro party hp k v hv
  obtain ⟨d, d1, d2⟩ := h4 party hp
  have hco := hinv'.coherent p o h1
  have hvk := mem_partOf_mapping hco hv
  have hvn : v ∈ nodes o.graph := by
    have := (hinv'.covers p o h1 v).1 hvk
    rw [hsrc'.sameNodes] at this; exact this
  unfold Elec.held votesOn
  rw [d1]
  rcases ht : elecs[i].tallies.get? party with _ | data
  · rw [k2.missing party ht] at d1; cases d1
  rcases data with c | d0
  · rcases k2.columns party c ht with hcol | ⟨g, d', q1, q2, q3⟩
    · rw [hcol] at d1; cases d1
    · rw [q3] at d1; cases d1
      have hd := readColumn_ok q2 v
      have hvg : v ∈ nodes g := by
        by_contra hng
        rw [if_neg hng] at hd
        obtain ⟨x, hx⟩ := Dict.mem_keys_iff.1 (d2 v hvk)
        rw [hd] at hx; cases hx
      rw [if_pos hvg] at hd
      simp only
      rw [hd, hagree g o.graph q1 (hsrc'.graphs o (List.mem_of_getElem? h1)) v hvg hvn c ⟨elecs[i], List.getElem_mem hi, party, ht⟩]
  · rw [k2.values party d0 ht] at d1
    cases d1
    rfl

/-! ## Aliases -/

/-- **C96.** If an election is registered only under other names than its alias, lookups work on partitions without parent but raise `KeyError` on every child. -/
theorem C96_unregistered_alias (s : ElecWorld V P) {limit : ℕ} {name : String} {p q i : ℕ} {o o' : ElecObj V P} {e : Elec V}
    (hc : (s.cache p).get? name = none) (ho : s.objs[p]? = some o) (hi : o.updaters.get? name = some i) (he : s.elecs[i]? = some e)
    (hq : o.parent = some q) (ho' : s.objs[q]? = some o') (hu : o'.updaters.get? e.aliasName = none) (hcq : (s.cache q).get? e.aliasName = none) :
    electionItem (limit + 2) name p s = (.error .keyError, s) := by
  have h1 : electionItem (limit + 1) e.aliasName q s = (.error .keyError, s) := by
    rw [electionItem]
    simp only [hcq, ho', hu]
  have h2 : callElection (electionItem (limit + 1)) i o e s = (.error .keyError, s) := by
    unfold callElection
    rw [hq]
    simp only
    have h3 : ((electionItem (limit + 1) e.aliasName q >>= fun r => pure (some r.totalsForParty)) : M (ElecWorld V P) _) s = (.error .keyError, s) :=
      M.bind_error h1
    rw [M.bind_error h3]
  rw [electionItem]
  simp only [hc, ho, hi, he, h2]

/-- **C96.** A node that the first graph did not have makes every partition without parent on the second graph fail. -/
theorem C96_unknown_node (s : ElecWorld V P) {limit : ℕ} {name : String} {p i : ℕ} {o : ElecObj V P} {e : Elec V} {party : String} {l : List String} {d : Dict V ℚ} {v : V}
    (hc : (s.cache p).get? name = none) (ho : s.objs[p]? = some o) (hi : o.updaters.get? name = some i) (he : s.elecs[i]? = some e)
    (hp : o.parent = none) (hl : e.parties = party :: l) (hd : e.tallies.get? party = some (.values d)) (hv : v ∈ o.plan.mapping.keys) (hvd : v ∉ d.keys) :
    electionItem (limit + 1) name p s = (.error .keyError, s) := by
  have h1 : callTally i party o none s = (.error .keyError, s) := by
    unfold callTally
    simp only [he, hd, hp]
    unfold tallyFrom
    rw [if_neg (fun hall => hvd (hall v hv))]
  have h2 : callElection (electionItem limit) i o e s = (.error .keyError, s) := by
    unfold callElection
    rw [hp, hl]
    have h3 : electionCounts i o none (party :: l) Dict.empty s = (.error .keyError, s) := by
      unfold electionCounts
      have h4 : (M.lift (previousOf (none : Option (Dict String (Dict P Num))) party) : M (ElecWorld V P) (Option (Dict P Num))) s = (.ok none, s) := rfl
      rw [M.bind_ok h4, M.bind_error h1]
    have h5 : (pure (none : Option (Dict String (Dict P Num))) : M (ElecWorld V P) _) s = (.ok none, s) := rfl
    simp only
    rw [M.bind_ok h5, M.bind_error h3]
  rw [electionItem]
  simp only [hc, ho, hi, he, h2]

/-! ## Counterexamples -/

/-- two elections on three precincts: with alias "A" and columns "D", "R", and with the same alias but columns "D2", "R2" -/
def demoElecs : List (Elec (Fin 3)) :=
  [Elec.ofDict "A" ⟨[("Dem", .column "D"), ("Rep", .column "R")]⟩ none, Elec.ofDict "A" ⟨[("Dem", .column "D2"), ("Rep", .column "R2")]⟩ none]

/-- votes on the graphs 0 and 1 -/
def demoVotes (g : ℕ) (v : Fin 3) (c : String) : Option ℚ :=
  if c = "D" then some (if g = 0 then 10 else 7) else if c = "R" then some 5 else if c = "D2" then some 100 else if c = "R2" then some (v.val + 1 : ℚ) else none

/-- the world before anything happens -/
def demoStart : ElecWorld (Fin 3) ℕ := ElecWorld.start (fun _ => Finset.univ) demoVotes demoElecs

/-- precincts 0 and 1 form district 1, precinct 2 district 2 -/
def demoPlan : Dict (Fin 3) ℕ := ⟨[(0, 1), (1, 1), (2, 2)]⟩

/-- the votes for the party by district, as reported -/
def reportedVotes (limit : ℕ) (name : String) (p : ℕ) (party : String) (s : ElecWorld (Fin 3) ℕ) : Option (List (ℕ × Num)) :=
  match (electionItem limit name p s).1 with
  | .ok r => (r.totalsForParty.get? party).map (·.entries)
  | .error _ => none

/-- **C96 is violated:** the same election on a second graph reports the votes of the first (10 per precinct instead of 7). -/
theorem C96_second_graph_violation :
    let s := demoStart.run [.create 0 demoPlan ⟨[("A", 0)]⟩, .create 1 demoPlan ⟨[("A", 0)]⟩, .lookup 5 "A" 0]
    reportedVotes 5 "A" 1 "Dem" s = some [(1, ((20 : ℚ) : Num)), (2, ((10 : ℚ) : Num))] ∧ (∀ v, s.attr 1 v "D" = some 7) ∧
      reportedVotes 5 "A" 1 "Dem" (demoStart.run [.create 0 demoPlan ⟨[("A", 0)]⟩, .create 1 demoPlan ⟨[("A", 0)]⟩]) =
        some [(1, ((14 : ℚ) : Num)), (2, ((7 : ℚ) : Num))] := by
  decide +kernel

/-- **C96 is violated:** after the votes in the graph have been corrected, new partitions still report the old ones. -/
theorem C96_corrected_votes_violation :
    let s := demoStart.run [.create 0 demoPlan ⟨[("A", 0)]⟩, .lookup 5 "A" 0, .setAttr 0 2 "D" 1, .create 0 demoPlan ⟨[("A", 0)]⟩]
    reportedVotes 5 "A" 1 "Dem" s = some [(1, ((20 : ℚ) : Num)), (2, ((10 : ℚ) : Num))] ∧ s.attr 0 2 "D" = some 1 := by
  decide +kernel

/-- **C96 is violated:** two elections with the same alias.  On the initial plan "A2" reports the votes of its columns (200 and 100); on the child in which precinct 1
has moved it reports the votes of the *other* election (20 and 10) plus and minus its own votes of the precinct that moved. -/
theorem C96_other_election_violation :
    let s := demoStart.run [.create 0 demoPlan ⟨[("A", 0), ("A2", 1)]⟩, .lookup 5 "A2" 0, .flip 0 ⟨[(1, 2)]⟩]
    reportedVotes 5 "A2" 0 "Dem" s = some [(1, ((200 : ℚ) : Num)), (2, ((100 : ℚ) : Num))] ∧
      reportedVotes 5 "A2" 1 "Dem" s = some [(1, ((-80 : ℚ) : Num)), (2, ((110 : ℚ) : Num))] := by
  decide +kernel

/-! ## The hypotheses can be met -/

theorem registered_demo : Registered demoElecs ⟨[("A", 0), ("B", 0)]⟩ := by
  intro name i e h1 h2
  have hi : i = 0 := by
    have hk := Dict.mem_keys_iff.2 ⟨i, h1⟩
    simp [Dict.keys] at hk
    rcases hk with rfl | rfl
    · exact (Option.some.inj h1).symm
    · exact (Option.some.inj h1).symm
  subst hi
  cases h2
  rfl

/-- a history with a flip, registered under the alias and another name: the lookup on the child succeeds and reports precincts 1 and 2 in district 2 -/
example : (∀ op ∈ ([.create 0 demoPlan ⟨[("A", 0), ("B", 0)]⟩, .lookup 5 "B" 0, .flip 0 ⟨[(1, 2)]⟩] : List (ElecOp (Fin 3) ℕ)), op.Good demoElecs) ∧
    (∀ op ∈ ([.create 0 demoPlan ⟨[("A", 0), ("B", 0)]⟩, .lookup 5 "B" 0, .flip 0 ⟨[(1, 2)]⟩] : List (ElecOp (Fin 3) ℕ)), op.Steady demoElecs (fun g => g = 0)) ∧
    reportedVotes 5 "B" 1 "Dem" (demoStart.run [.create 0 demoPlan ⟨[("A", 0), ("B", 0)]⟩, .lookup 5 "B" 0, .flip 0 ⟨[(1, 2)]⟩]) =
      some [(1, ((10 : ℚ) : Num)), (2, ((20 : ℚ) : Num))] := by
  refine ⟨?_, ?_, by decide +kernel⟩
  · intro op hop
    simp only [List.mem_cons, List.not_mem_nil, or_false] at hop
    rcases hop with rfl | rfl | rfl
    · exact ⟨by unfold Dict.WF; decide, registered_demo⟩
    · trivial
    · show Dict.WF _; unfold Dict.WF; decide
  · intro op hop
    simp only [List.mem_cons, List.not_mem_nil, or_false] at hop
    rcases hop with rfl | rfl | rfl
    · rfl
    · trivial
    · trivial

/-- the first graph has been read: hypothesis of `C96_first_graph_wins` -/
example : ((demoStart.run [.create 0 demoPlan ⟨[("A", 0)]⟩, .lookup 5 "A" 0]).elecs[0]?.bind (fun e => e.tallies.get? "Dem")).map
    (fun t => match t with | .values d => d.entries | .column _ => []) = some [(0, 10), (1, 10), (2, 10)] := by
  decide +kernel

/-- registered under another name only: the initial plan works, the child fails -/
example : let s := demoStart.run [.create 0 demoPlan ⟨[("B", 0)]⟩, .lookup 5 "B" 0, .flip 0 ⟨[(1, 2)]⟩]
    reportedVotes 5 "B" 0 "Dem" s = some [(1, ((20 : ℚ) : Num)), (2, ((10 : ℚ) : Num))] ∧ reportedVotes 5 "B" 1 "Dem" s = none ∧
      ((s.cache 1).get? "B").isNone ∧ ((s.cache 0).get? "A").isNone ∧ ((s.objs[1]?.bind (fun o => o.parent)) = some 0) := by
  decide +kernel

/-- a graph with fewer nodes first: the election fails on the larger one -/
example :
    let s : ElecWorld (Fin 3) ℕ := (ElecWorld.start (fun g => if g = 0 then {0, 1} else Finset.univ) demoVotes demoElecs).run
        [.create 0 ⟨[(0, 1), (1, 2)]⟩ ⟨[("A", 0)]⟩, .lookup 5 "A" 0, .create 1 demoPlan ⟨[("A", 0)]⟩]
    reportedVotes 5 "A" 0 "Dem" s = some [(1, ((10 : ℚ) : Num)), (2, ((10 : ℚ) : Num))] ∧ reportedVotes 5 "A" 1 "Dem" s = none := by
  decide +kernel

/-- a list of parties names the columns -/
example : (Elec.ofList "A" ["D", "R"] (some "B") : Elec (Fin 3)).aliasName = "B" ∧ (Elec.ofList "A" ["D", "R"] none : Elec (Fin 3)).aliasName = "A" := by
  decide +kernel

/-! ## Elections made from a list or a dictionary -/

theorem foldl_column_get? (l : List String) : ∀ (d : Dict String (TallyData V)) (p : String),
    (l.foldl (fun d p => d.set p (.column p)) d).get? p = if p ∈ l then some (.column p) else d.get? p := by
  induction l with
  | nil => intro d p; simp
  | cons x l ih =>
    intro d p
    rw [List.foldl_cons, ih, Dict.get?_set]
    by_cases h1 : p ∈ l
    · simp [h1]
    · by_cases h2 : p = x
      · simp [h2]
      · simp [h1, h2]

/-- **C96.** An election made from a list of names: under the hypotheses of `C96_partial` every partition reports, for each of the names, the
sums of the column with that name over its districts. -/
theorem C96_list_of_columns (nodes : ℕ → Finset V) (attr : ℕ → V → String → Option ℚ) (elecs : List (Elec V)) (ops : List (ElecOp V P)) (gs : ℕ → Prop)
    (hops : ∀ op ∈ ops, op.Good elecs) (hsteady : ∀ op ∈ ops, op.Steady elecs gs)
    (hagree : ∀ g g', gs g → gs g' → ∀ v ∈ nodes g, v ∈ nodes g' → ∀ c, UsedColumn elecs c → attr g v c = attr g' v c)
    {limit : ℕ} {name n : String} {columns : List String} {a : Option String} {p i : ℕ} {r : ElectionVal P} {s' : ElecWorld V P} {o : ElecObj V P}
    (h : electionItem limit name p ((ElecWorld.start nodes attr elecs).run ops) = (.ok r, s')) (ho : s'.objs[p]? = some o)
    (hi : o.updaters.get? name = some i) (he : elecs[i]? = some (Elec.ofList n columns a)) {c : String} (hc : c ∈ columns) :
    ∃ t, r.totalsForParty.get? c = some t ∧
      ∀ k ∈ o.plan.parts.keys, t.get? k = some ((∑ v ∈ o.plan.partOf k, (attr o.graph v c).getD 0 : ℚ) : Num) := by
  obtain ⟨o', i', e, h1, h2, h3, h4⟩ := C96_partial nodes attr elecs ops gs hops hsteady hagree h
  rw [ho] at h1; cases h1
  rw [hi] at h2; cases h2
  rw [he] at h3; cases h3
  obtain ⟨t, k1, -, k2⟩ := h4.votes c hc
  refine ⟨t, k1, fun k hk => ?_⟩
  have hv : ∀ v, votesOn attr o.graph (Elec.ofList n columns a) c v = (attr o.graph v c).getD 0 := by
    intro v
    unfold votesOn Elec.ofList
    rw [foldl_column_get?, if_pos hc]
  simpa only [hv] using k2 k hk

/-- **C96.** An election made from a dictionary of columns: each party reports the sums of its own column. -/
theorem C96_dict_of_columns (nodes : ℕ → Finset V) (attr : ℕ → V → String → Option ℚ) (elecs : List (Elec V)) (ops : List (ElecOp V P)) (gs : ℕ → Prop)
    (hops : ∀ op ∈ ops, op.Good elecs) (hsteady : ∀ op ∈ ops, op.Steady elecs gs)
    (hagree : ∀ g g', gs g → gs g' → ∀ v ∈ nodes g, v ∈ nodes g' → ∀ c, UsedColumn elecs c → attr g v c = attr g' v c)
    {limit : ℕ} {name n : String} {columns : Dict String (TallyData V)} {a : Option String} {p i : ℕ} {r : ElectionVal P} {s' : ElecWorld V P}
    {o : ElecObj V P} (h : electionItem limit name p ((ElecWorld.start nodes attr elecs).run ops) = (.ok r, s')) (ho : s'.objs[p]? = some o)
    (hi : o.updaters.get? name = some i) (he : elecs[i]? = some (Elec.ofDict n columns a)) {party c : String}
    (hc : columns.get? party = some (.column c)) :
    ∃ t, r.totalsForParty.get? party = some t ∧
      ∀ k ∈ o.plan.parts.keys, t.get? k = some ((∑ v ∈ o.plan.partOf k, (attr o.graph v c).getD 0 : ℚ) : Num) := by
  obtain ⟨o', i', e, h1, h2, h3, h4⟩ := C96_partial nodes attr elecs ops gs hops hsteady hagree h
  rw [ho] at h1; cases h1
  rw [hi] at h2; cases h2
  rw [he] at h3; cases h3
  obtain ⟨t, k1, -, k2⟩ := h4.votes party (Dict.mem_keys_iff.2 ⟨_, hc⟩)
  refine ⟨t, k1, fun k hk => ?_⟩
  have hv : ∀ v, votesOn attr o.graph (Elec.ofDict n columns a) party v = (attr o.graph v c).getD 0 := by
    intro v
    unfold votesOn Elec.ofDict
    rw [hc]
  simpa only [hv] using k2 k hk

/-- **C96.** An election is registered under its alias if the key is the name given as `alias`, or the name of the election if none was given. -/
theorem C96_key_is_alias (elecs : List (Elec V)) (key name : String) (a : Option String) (ha : a = some key ∨ a = none ∧ name = key) (i : ℕ)
    (columns : Dict String (TallyData V)) (parties : List String)
    (h : elecs[i]? = some (Elec.ofDict name columns a) ∨ elecs[i]? = some (Elec.ofList name parties a)) : Registered elecs ⟨[(key, i)]⟩ := by
  intro name' i' e h1 h2
  have hk : name' = key := by
    have := Dict.mem_keys_iff.2 ⟨i', h1⟩
    simpa [Dict.keys] using this
  subst hk
  have hi : i = i' := by simpa [Dict.get?] using h1
  subst hi
  have : e.aliasName = name' := by
    rcases h with h | h <;> rw [h2] at h <;> cases h <;> rcases ha with rfl | ⟨rfl, rfl⟩ <;> rfl
  rw [this]
  exact h1

/-- **C96.** A partition with a parent cannot be the first to use a column: if nodes have moved, the tally raises `TypeError`
(updaters/tally.py:57-66). -/
theorem C96_unread_column (s : ElecWorld V P) {i : ℕ} {party c : String} {o : ElecObj V P} {q : ℕ} {prev : Dict P Num} {e : Elec V}
    (he : s.elecs[i]? = some e) (hc : e.tallies.get? party = some (.column c)) (ho : o.parent = some q) (hf : o.flows.entries ≠ []) :
    callTally i party o (some prev) s = (.error .typeError, s) := by
  unfold callTally tallyMove
  simp only [he, hc, ho, if_neg hf]

/-- the hypotheses hold, and the numbers are those of the columns: an election made from the list of its two columns -/
example :
    let s : ElecWorld (Fin 3) ℕ := (ElecWorld.start (fun _ => Finset.univ) demoVotes [Elec.ofList "A" ["D", "R"] none]).run
        [.create 0 demoPlan ⟨[("A", 0)]⟩]
    reportedVotes 5 "A" 0 "D" s = some [(1, ((20 : ℚ) : Num)), (2, ((10 : ℚ) : Num))] ∧
      Registered [(Elec.ofList "A" ["D", "R"] none : Elec (Fin 3))] ⟨[("A", 0)]⟩ :=
  ⟨by decide +kernel, C96_key_is_alias _ "A" "A" none (.inr ⟨rfl, rfl⟩) 0 Dict.empty ["D", "R"] (.inr rfl)⟩

/-- two elections with the same alias: the second one has not read its columns when a child is looked up -/
example :
    let s := demoStart.run [.create 0 demoPlan ⟨[("A", 0), ("A2", 1)]⟩, .flip 0 ⟨[(1, 2)]⟩]
    (s.elecs[1]?.bind (fun e => e.tallies.get? "Dem")).map (fun t => match t with | .values _ => "" | .column c => c) = some "D2" ∧
      (s.objs[1]?.bind (fun o => o.parent)) = some 0 ∧ (s.objs[1]?.map (fun o => o.flows.entries.length)) = some 2 ∧
      reportedVotes 5 "A2" 1 "Dem" s = none := by
  decide +kernel

end GC

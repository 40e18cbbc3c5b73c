import Verif.Model.Elections
import Verif.Lemmas.HeapCompute
import Verif.Lemmas.TreeCuts

/-!
# Lemmas on election objects: what lookups leave alone and what the results add up to
-/

set_option linter.unusedSectionVars false
set_option autoImplicit false

namespace GC

variable {V P : Type} [LinearOrder V] [DecidableEq P]

/-- the votes that an election remembers for a party (0 where it remembers nothing) -/
def Elec.held (e : Elec V) (party : String) (v : V) : ℚ :=
  match e.tallies.get? party with
  | some (.values d) => (d.get? v).getD 0
  | _ => 0

/-- the results `r` are those of the votes `val` in the plan `a`: districts, votes of each party by district, and total votes -/
structure ResultsOf (parties : List String) (val : String → V → ℚ) (a : Assignment V P) (r : ElectionVal P) : Prop where
  regions : r.regions = a.parts.keys
  votes : ∀ party ∈ parties, ∃ t, r.totalsForParty.get? party = some t ∧ (∀ k, k ∈ t.keys ↔ k ∈ a.parts.keys) ∧
    ∀ k ∈ a.parts.keys, t.get? k = some ((∑ v ∈ a.partOf k, val party v : ℚ) : Num)
  totals : ∀ k ∈ a.parts.keys, r.totals.get? k = some (((parties.map (fun party => ∑ v ∈ a.partOf k, val party v)).sum : ℚ) : Num)

/-- the election knows the votes of every party at every node of the plan -/
def Elec.Knows (e : Elec V) (parties : List String) (a : Assignment V P) : Prop :=
  ∀ party ∈ parties, ∃ d, e.tallies.get? party = some (.values d) ∧ ∀ v ∈ a.mapping.keys, v ∈ d.keys

/-- `e'` is `e`, some columns having been replaced by what was read from one of the graphs `gs` -/
structure ElecExt (nodes : ℕ → Finset V) (attr : ℕ → V → String → Option ℚ) (gs : ℕ → Prop) (e e' : Elec V) : Prop where
  aliasName : e'.aliasName = e.aliasName
  parties : e'.parties = e.parties
  values : ∀ party d, e.tallies.get? party = some (.values d) → e'.tallies.get? party = some (.values d)
  columns : ∀ party c, e.tallies.get? party = some (.column c) → e'.tallies.get? party = some (.column c) ∨
    ∃ g d, gs g ∧ readColumn (nodes g) (attr g) c = .ok d ∧ e'.tallies.get? party = some (.values d)
  missing : ∀ party, e.tallies.get? party = none → e'.tallies.get? party = none

/-- what a lookup may change -/
structure LookupExt (s s' : ElecWorld V P) : Prop where
  nodes : s'.nodes = s.nodes
  attr : s'.attr = s.attr
  objs : s'.objs = s.objs
  len : s'.elecs.length = s.elecs.length
  elecs : ∀ (i : ℕ) (e : Elec V), s.elecs[i]? = some e → ∃ e', s'.elecs[i]? = some e' ∧
    ElecExt s.nodes s.attr (fun g => ∃ o ∈ s.objs, o.graph = g) e e'
  cache : ∀ p name r, (s.cache p).get? name = some r → (s'.cache p).get? name = some r

theorem ElecExt.refl {nodes : ℕ → Finset V} {attr : ℕ → V → String → Option ℚ} {gs : ℕ → Prop} (e : Elec V) :
    ElecExt nodes attr gs e e :=
  ⟨rfl, rfl, fun _ _ h => h, fun _ _ h => Or.inl h, fun _ h => h⟩

theorem ElecExt.trans {nodes : ℕ → Finset V} {attr : ℕ → V → String → Option ℚ} {gs : ℕ → Prop} {e f g : Elec V}
    (h : ElecExt nodes attr gs e f) (h' : ElecExt nodes attr gs f g) : ElecExt nodes attr gs e g := by
  refine ⟨h'.1.trans h.1, h'.2.trans h.2, fun p d hd => h'.3 p d (h.3 p d hd), ?_, fun p hp => h'.5 p (h.5 p hp)⟩
  intro p c hc
  rcases h.4 p c hc with h1 | ⟨x, d, h1, h2, h3⟩
  · exact h'.4 p c h1
  · exact Or.inr ⟨x, d, h1, h2, h'.3 p d h3⟩

theorem LookupExt.refl (s : ElecWorld V P) : LookupExt s s :=
  ⟨rfl, rfl, rfl, rfl, fun _ e h => ⟨e, h, ElecExt.refl e⟩, fun _ _ _ h => h⟩

theorem LookupExt.trans {s t u : ElecWorld V P} (h : LookupExt s t) (h' : LookupExt t u) : LookupExt s u := by
  refine ⟨h'.1.trans h.1, h'.2.trans h.2, h'.3.trans h.3, h'.4.trans h.4, ?_, fun p n r hr => h'.6 p n r (h.6 p n r hr)⟩
  intro i e he
  obtain ⟨f, hf, h1⟩ := h.5 i e he
  obtain ⟨g, hg, h2⟩ := h'.5 i f hf
  rw [h.1, h.2, h.3] at h2
  exact ⟨g, hg, h1.trans h2⟩

theorem ElecExt.knows {nodes : ℕ → Finset V} {attr : ℕ → V → String → Option ℚ} {gs : ℕ → Prop} {e e' : Elec V}
    (h : ElecExt nodes attr gs e e') {l : List String} {a : Assignment V P} (hk : e.Knows l a) : e'.Knows l a := by
  intro party hp
  obtain ⟨d, h1, h2⟩ := hk party hp
  exact ⟨d, h.values party d h1, h2⟩

theorem ElecExt.held {nodes : ℕ → Finset V} {attr : ℕ → V → String → Option ℚ} {gs : ℕ → Prop} {e e' : Elec V}
    (h : ElecExt nodes attr gs e e') {party : String} {d : Dict V ℚ} (hd : e.tallies.get? party = some (.values d)) :
    e'.held party = e.held party := by
  unfold Elec.held
  rw [hd, h.values party d hd]

theorem ResultsOf.congr {parties : List String} {val val' : String → V → ℚ} {a : Assignment V P} {r : ElectionVal P}
    (h : ResultsOf parties val a r) (hv : ∀ party ∈ parties, ∀ k, ∀ v ∈ a.partOf k, val' party v = val party v) : ResultsOf parties val' a r := by
  have hs : ∀ party ∈ parties, ∀ k, ∑ v ∈ a.partOf k, val' party v = ∑ v ∈ a.partOf k, val party v :=
    fun party hp k => Finset.sum_congr rfl (hv party hp k)
  refine ⟨h.regions, ?_, ?_⟩
  · intro party hp
    obtain ⟨t, h1, h2, h3⟩ := h.votes party hp
    exact ⟨t, h1, h2, fun k hk => by rw [hs party hp k]; exact h3 k hk⟩
  · intro k hk
    rw [h.totals k hk, List.map_congr_left (fun party hp => (hs party hp k))]

/-- the flows and the plan of a child come from those of its parent -/
structure ElecChild (o' o : ElecObj V P) : Prop where
  updaters : o.updaters = o'.updaters
  graph : o.graph = o'.graph
  steps : ∃ flips : Dict V P, FlipSpec o'.plan flips o.plan ∧ FlowsSpec o'.plan.mapping flips o.flows

/-- every name registered for an election comes with the alias of the election, registered for the same election -/
def Registered (elecs : List (Elec V)) (ups : Dict String ℕ) : Prop :=
  ∀ (name : String) (i : ℕ) (e : Elec V), ups.get? name = some i → elecs[i]? = some e → ups.get? e.aliasName = some i

/-- the invariant of all histories in which the elections are registered under their aliases -/
structure ElecInv (s : ElecWorld V P) : Prop where
  coherent : ∀ (p : ℕ) (o : ElecObj V P), s.objs[p]? = some o → o.plan.Coherent
  covers : ∀ (p : ℕ) (o : ElecObj V P), s.objs[p]? = some o → ∀ v, v ∈ o.plan.mapping.keys ↔ v ∈ s.nodes o.graph
  child : ∀ (p : ℕ) (o : ElecObj V P), s.objs[p]? = some o → ∀ q, o.parent = some q → ∃ o', s.objs[q]? = some o' ∧ ElecChild o' o
  registered : ∀ (p : ℕ) (o : ElecObj V P), s.objs[p]? = some o → Registered s.elecs o.updaters
  cached : ∀ p name r, (s.cache p).get? name = some r → ∃ o i e, s.objs[p]? = some o ∧ o.updaters.get? name = some i ∧
    s.elecs[i]? = some e ∧ e.Knows e.parties o.plan ∧ ResultsOf e.parties e.held o.plan r

theorem LookupExt.registered {s s' : ElecWorld V P} (h : LookupExt s s') {ups : Dict String ℕ} (hr : Registered s.elecs ups) :
    Registered s'.elecs ups := by
  intro name i e' h1 h2
  have hi : i < s.elecs.length := by
    rw [← h.len]; exact (List.getElem?_eq_some_iff.1 h2).1
  obtain ⟨e'', h3, h4⟩ := h.elecs i _ (List.getElem?_eq_getElem hi)
  rw [h2] at h3; cases h3
  rw [h4.aliasName]
  exact hr name i _ h1 (List.getElem?_eq_getElem hi)

/-- results stay right when the election learns more -/
theorem ElecExt.results {nodes : ℕ → Finset V} {attr : ℕ → V → String → Option ℚ} {gs : ℕ → Prop} {e e' : Elec V}
    (h : ElecExt nodes attr gs e e') {a : Assignment V P} {r : ElectionVal P} (hk : e.Knows e.parties a)
    (hr : ResultsOf e.parties e.held a r) : e'.Knows e'.parties a ∧ ResultsOf e'.parties e'.held a r := by
  rw [h.parties]
  refine ⟨h.knows hk, hr.congr ?_⟩
  intro party hp k v _
  obtain ⟨d, hd, -⟩ := hk party hp
  rw [h.held hd]

/-- a change that keeps the caches keeps the invariant -/
theorem ElecInv.ext {s s' : ElecWorld V P} (hs : ElecInv s) (h : LookupExt s s') (hc : s'.cache = s.cache) : ElecInv s' := by
  refine ⟨?_, ?_, ?_, ?_, ?_⟩
  · rw [h.objs]; exact hs.coherent
  · rw [h.objs, h.nodes]; exact hs.covers
  · rw [h.objs]; exact hs.child
  · rw [h.objs]; exact fun p o ho => h.registered (hs.registered p o ho)
  · intro p name r hr
    rw [hc] at hr
    obtain ⟨o, i, e, h1, h2, h3, h4, h5⟩ := hs.cached p name r hr
    obtain ⟨e', h6, h7⟩ := h.elecs i e h3
    obtain ⟨h8, h9⟩ := h7.results h4 h5
    exact ⟨o, i, e', by rw [h.objs]; exact h1, h2, h6, h8, h9⟩

theorem remember_ext {s : ElecWorld V P} {i : ℕ} {e : Elec V} {party c : String} {d : Dict V ℚ} {o : ElecObj V P}
    (he : s.elecs[i]? = some e) (hc : e.tallies.get? party = some (.column c)) (ho : o ∈ s.objs)
    (hd : readColumn (s.nodes o.graph) (s.attr o.graph) c = .ok d) : LookupExt s (s.remember i party d) := by
  refine ⟨rfl, rfl, rfl, by simp [ElecWorld.remember], ?_, fun _ _ _ h => h⟩
  intro j f hf
  unfold ElecWorld.remember
  simp only [List.getElem?_modify]
  by_cases hij : i = j
  · subst hij
    rw [he] at hf; cases hf
    refine ⟨{ e with tallies := e.tallies.set party (.values d) }, by rw [he]; simp, rfl, rfl, ?_, ?_, ?_⟩
    · intro q d' hq
      by_cases hpq : q = party
      · subst hpq; rw [hc] at hq; cases hq
      · simp only [Dict.get?_set_ne _ _ hpq]; exact hq
    · intro q c' hq
      by_cases hpq : q = party
      · subst hpq; rw [hc] at hq; cases hq
        exact Or.inr ⟨o.graph, d, ⟨o, ho, rfl⟩, hd, by simp only [Dict.get?_set_self]⟩
      · left; simp only [Dict.get?_set_ne _ _ hpq]; exact hq
    · intro q hq
      have hpq : q ≠ party := by rintro rfl; rw [hc] at hq; cases hq
      simp only [Dict.get?_set_ne _ _ hpq]; exact hq
  · exact ⟨f, by simp [hij, hf], ElecExt.refl f⟩

theorem callTally_ext (i : ℕ) (party : String) (o : ElecObj V P) (previous : Option (Dict P Num)) (s : ElecWorld V P) (ho : o ∈ s.objs) :
    LookupExt s (callTally i party o previous s).2 ∧ (callTally i party o previous s).2.cache = s.cache := by
  unfold callTally
  rcases he : s.elecs[i]? with _ | e
  · exact ⟨LookupExt.refl s, rfl⟩
  rcases ht : e.tallies.get? party with _ | data
  · simp only [ht]; exact ⟨LookupExt.refl s, trivial⟩
  simp only [ht]
  rcases hp : o.parent with _ | q
  · rcases data with c | d
    · simp only
      rcases hr : readColumn (s.nodes o.graph) (s.attr o.graph) c with err | d
      · exact ⟨LookupExt.refl s, rfl⟩
      · exact ⟨remember_ext he ht ho hr, rfl⟩
    · exact ⟨LookupExt.refl s, rfl⟩
  · rcases previous with _ | prev
    · exact ⟨LookupExt.refl s, rfl⟩
    · exact ⟨LookupExt.refl s, rfl⟩

theorem electionCounts_ext (i : ℕ) (o : ElecObj V P) (previous : Option (Dict String (Dict P Num))) (l : List String)
    (d : Dict String (Dict P Num)) (s : ElecWorld V P) (ho : o ∈ s.objs) :
    LookupExt s (electionCounts i o previous l d s).2 ∧ (electionCounts i o previous l d s).2.cache = s.cache := by
  induction l generalizing d s with
  | nil => exact ⟨LookupExt.refl s, rfl⟩
  | cons party l ih =>
    unfold electionCounts
    rcases h1 : (M.lift (previousOf previous party) : M (ElecWorld V P) (Option (Dict P Num))) s with ⟨err | prev, s1⟩
    · rw [M.bind_error h1]
      have : s1 = s := (Prod.ext_iff.1 h1).2.symm
      subst this
      exact ⟨LookupExt.refl _, rfl⟩
    · rw [M.bind_ok h1]
      have : s1 = s := (Prod.ext_iff.1 h1).2.symm
      subst this
      obtain ⟨h2, h3⟩ := callTally_ext i party o prev s1 ho
      rcases h4 : callTally i party o prev s1 with ⟨err | t, s2⟩
      · rw [M.bind_error h4]
        rw [h4] at h2 h3
        exact ⟨h2, h3⟩
      · rw [M.bind_ok h4]
        rw [h4] at h2 h3
        obtain ⟨h5, h6⟩ := ih (d.set party t) s2 (by rw [h2.objs]; exact ho)
        exact ⟨h2.trans h5, h6.trans h3⟩

/-- lookups change nothing but what the elections remember and the caches -/
theorem electionItem_ext (limit : ℕ) (name : String) (p : ℕ) (s : ElecWorld V P) : LookupExt s (electionItem limit name p s).2 := by
  induction limit generalizing name p s with
  | zero => exact LookupExt.refl s
  | succ limit ih =>
    unfold electionItem
    rcases hc : (s.cache p).get? name with _ | r
    swap
    · exact LookupExt.refl s
    rcases ho : s.objs[p]? with _ | o
    · exact LookupExt.refl s
    simp only
    rcases hu : o.updaters.get? name with _ | i
    · exact LookupExt.refl s
    simp only
    rcases he : s.elecs[i]? with _ | e
    · exact LookupExt.refl s
    simp only
    have hom : o ∈ s.objs := List.mem_of_getElem? ho
    have key : LookupExt s (callElection (electionItem limit) i o e s).2 := by
      unfold callElection
      have hfin : ∀ (previous : Option (Dict String (Dict P Num))) (t : ElecWorld V P), LookupExt s t →
          LookupExt s (((electionCounts i o previous e.parties Dict.empty) >>= fun counts =>
            M.lift (electionResults (e.parties.map (fun p => (p, p))) counts o.plan.parts.keys)) t).2 := by
        intro previous t ht
        obtain ⟨h2, -⟩ := electionCounts_ext i o previous e.parties Dict.empty t (by rw [ht.objs]; exact hom)
        rcases h4 : electionCounts i o previous e.parties Dict.empty t with ⟨err | c, s2⟩
        · rw [M.bind_error h4]; rw [h4] at h2; exact ht.trans h2
        · rw [M.bind_ok h4]; rw [h4] at h2; exact ht.trans h2
      rcases hp : o.parent with _ | q
      · exact hfin none s (LookupExt.refl s)
      · simp only
        rcases h1 : electionItem limit e.aliasName q s with ⟨err | r, s1⟩
        · have h2 := ih e.aliasName q s
          rw [h1] at h2
          have h3 : ((electionItem limit e.aliasName q >>= fun r => pure (some r.totalsForParty)) : M (ElecWorld V P) _) s = (.error err, s1) :=
            M.bind_error h1
          rw [M.bind_error h3]; exact h2
        · have h2 := ih e.aliasName q s
          rw [h1] at h2
          have h3 : ((electionItem limit e.aliasName q >>= fun r => pure (some r.totalsForParty)) : M (ElecWorld V P) _) s = (.ok (some r.totalsForParty), s1) := by
            rw [M.bind_ok h1]; rfl
          rw [M.bind_ok h3]
          exact hfin _ s1 h2
    rcases h1 : callElection (electionItem limit) i o e s with ⟨err | r, s1⟩
    · rw [h1] at key; exact key
    · rw [h1] at key
      refine ⟨key.1, key.2, key.3, key.4, key.5, ?_⟩
      intro q n x hx
      simp only
      by_cases hq : q = p
      · subst hq
        have hn : n ≠ name := by rintro rfl; rw [hc] at hx; cases hx
        rw [if_pos rfl, Dict.get?_set_ne _ _ hn]
        exact key.6 _ n x hx
      · rw [if_neg hq]; exact key.6 q n x hx

/-- at the world `s`, election `i` knows the votes of `party` at all nodes of `a`, and `t` holds their sums -/
def CountOK (s : ElecWorld V P) (i : ℕ) (a : Assignment V P) (party : String) (t : Dict P Num) : Prop :=
  ∃ e d, s.elecs[i]? = some e ∧ e.tallies.get? party = some (.values d) ∧ (∀ v ∈ a.mapping.keys, v ∈ d.keys) ∧
    TallyOK (valuesOf d) (fun _ => True) a t

theorem CountOK.ext {s s' : ElecWorld V P} {i : ℕ} {a : Assignment V P} {party : String} {t : Dict P Num} (h : CountOK s i a party t)
    (hx : LookupExt s s') : CountOK s' i a party t := by
  obtain ⟨e, d, h1, h2, h3, h4⟩ := h
  obtain ⟨e', h5, h6⟩ := hx.elecs i e h1
  exact ⟨e', d, h5, h6.values party d h2, h3, h4⟩

theorem flip_keys {a b : Assignment V P} {flips : Dict V P} (h : FlipSpec a flips b) (v : V) :
    v ∈ b.mapping.keys ↔ v ∈ a.mapping.keys := by
  rw [Dict.mem_keys_iff, Dict.mem_keys_iff]
  rw [h.get? v]
  constructor
  · rintro ⟨x, hx⟩
    rcases hf : flips.get? v with _ | y
    · rw [hf] at hx; exact ⟨x, by simpa using hx⟩
    · exact h.known v y hf
  · rintro ⟨x, hx⟩
    rcases hf : flips.get? v with _ | y
    · exact ⟨x, by simpa using hx⟩
    · exact ⟨y, rfl⟩

theorem callTally_ok {s s' : ElecWorld V P} {i : ℕ} {party : String} {o : ElecObj V P} {prev : Option (Dict P Num)} {t : Dict P Num}
    (hom : o ∈ s.objs) (hco : o.plan.Coherent)
    (hprev : (o.parent = none ∧ prev = none) ∨ ∃ q o' x, o.parent = some q ∧ o'.plan.Coherent ∧ ElecChild o' o ∧ prev = some x ∧ CountOK s i o'.plan party x)
    (h : callTally i party o prev s = (.ok t, s')) : CountOK s' i o.plan party t := by
  unfold callTally at h
  rcases he : s.elecs[i]? with _ | e
  · rw [he] at h; cases h
  rw [he] at h
  rcases ht : e.tallies.get? party with _ | data
  · simp only [ht] at h; cases h
  simp only [ht] at h
  rcases hprev with ⟨hp, rfl⟩ | ⟨q, o', x, hp, hco', hch, rfl, e', d, h1, h2, h3, h4⟩
  · rw [hp] at h
    have fromOk : ∀ (d : Dict V ℚ), tallyFrom d o.plan.mapping = .ok t → (∀ v ∈ o.plan.mapping.keys, v ∈ d.keys) ∧
        TallyOK (valuesOf d) (fun _ => True) o.plan t := by
      intro d hd
      unfold tallyFrom at hd
      split at hd
      · rename_i hk
        cases hd
        exact ⟨hk, tallyInit_ok hco _ _⟩
      · cases hd
    rcases data with c | d
    · simp only at h
      rcases hr : readColumn (s.nodes o.graph) (s.attr o.graph) c with err | d
      · rw [hr] at h; cases h
      · rw [hr] at h
        simp only [Prod.mk.injEq] at h
        obtain ⟨h, rfl⟩ := h
        obtain ⟨k1, k2⟩ := fromOk d h
        refine ⟨{ e with tallies := e.tallies.set party (.values d) }, d, ?_, ?_, k1, k2⟩
        · unfold ElecWorld.remember
          simp only [List.getElem?_modify, he]; simp
        · simp only [Dict.get?_set_self]
    · simp only [Prod.mk.injEq] at h
      obtain ⟨h, rfl⟩ := h
      obtain ⟨k1, k2⟩ := fromOk d h
      exact ⟨e, d, he, ht, k1, k2⟩
  · rw [he] at h1; cases h1
    rw [ht] at h2; cases h2
    rw [hp] at h
    simp only [Prod.mk.injEq] at h
    obtain ⟨h, rfl⟩ := h
    obtain ⟨flips, f1, f2⟩ := hch.steps
    unfold tallyMove at h
    simp only at h
    split at h
    · refine ⟨e, d, he, ht, fun v hv => h3 v ((flip_keys f1 v).1 hv), ?_⟩
      exact dataTallyStep_ok hco' f1 f2 _ _ _ (fun _ _ => trivial) (fun _ _ => trivial) h4 h
    · cases h

theorem electionCounts_ok {i : ℕ} {o : ElecObj V P} {previous : Option (Dict String (Dict P Num))} (hco : o.plan.Coherent) (l : List String)
    (done : List String) (acc counts : Dict String (Dict P Num)) (s s' : ElecWorld V P) (hom : o ∈ s.objs)
    (hprev : (o.parent = none ∧ previous = none) ∨ ∃ q o' x, o.parent = some q ∧ o'.plan.Coherent ∧ ElecChild o' o ∧ previous = some x ∧
      ∀ party ∈ l, ∀ t, x.get? party = some t → CountOK s i o'.plan party t)
    (hacc : ∀ party ∈ done, ∃ t, acc.get? party = some t ∧ CountOK s i o.plan party t)
    (h : electionCounts i o previous l acc s = (.ok counts, s')) :
    ∀ party, party ∈ done ∨ party ∈ l → ∃ t, counts.get? party = some t ∧ CountOK s' i o.plan party t := by
  induction l generalizing done acc s with
  | nil =>
    cases h
    intro party hp
    rcases hp with hp | hp
    · exact hacc party hp
    · cases hp
  | cons party l ih =>
    unfold electionCounts at h
    rcases h1 : (M.lift (previousOf previous party) : M (ElecWorld V P) (Option (Dict P Num))) s with ⟨err | prev, s1⟩
    · rw [M.bind_error h1] at h; cases h
    rw [M.bind_ok h1] at h
    have hss : s1 = s := (Prod.ext_iff.1 h1).2.symm
    have hpv : previousOf previous party = .ok prev := (Prod.ext_iff.1 h1).1
    subst hss
    rcases h4 : callTally i party o prev s1 with ⟨err | t, s2⟩
    · rw [M.bind_error h4] at h; cases h
    rw [M.bind_ok h4] at h
    obtain ⟨hx, -⟩ := callTally_ext i party o prev s1 hom
    rw [h4] at hx
    have hct : CountOK s2 i o.plan party t := by
      refine callTally_ok hom hco ?_ h4
      rcases hprev with ⟨hp, rfl⟩ | ⟨q, o', x, hp, hco', hch, rfl, hall⟩
      · left
        refine ⟨hp, ?_⟩
        unfold previousOf at hpv
        cases hpv; rfl
      · right
        unfold previousOf at hpv
        simp only at hpv
        rcases hg : x.get party with err | y
        · rw [hg] at hpv; cases hpv
        · rw [hg] at hpv
          cases hpv
          exact ⟨q, o', y, hp, hco', hch, rfl, hall party (List.mem_cons_self ..) y (Dict.get_eq_ok_iff.1 hg)⟩
    have hfin := ih (done ++ [party]) (acc.set party t) s2 (by rw [hx.objs]; exact hom) ?_ ?_ h
    · intro p hp
      apply hfin p
      rcases hp with hp | hp
      · exact Or.inl (List.mem_append_left _ hp)
      · rcases List.mem_cons.1 hp with rfl | hp
        · exact Or.inl (List.mem_append_right _ (by simp))
        · exact Or.inr hp
    · rcases hprev with hp | ⟨q, o', x, hp, hco', hch, rfl, hall⟩
      · exact Or.inl hp
      · exact Or.inr ⟨q, o', x, hp, hco', hch, rfl, fun p hp t ht => (hall p (List.mem_cons_of_mem _ hp) t ht).ext hx⟩
    · intro p hp
      by_cases hpp : p = party
      · subst hpp
        exact ⟨t, by rw [Dict.get?_set_self], hct⟩
      · rcases List.mem_append.1 hp with hp | hp
        · obtain ⟨u, hu1, hu2⟩ := hacc p hp
          exact ⟨u, by rw [Dict.get?_set_ne _ _ hpp]; exact hu1, hu2.ext hx⟩
        · simp at hp; exact absurd hp hpp

theorem sum_coe_num (l : List String) (f : String → ℚ) : (l.map (fun x => ((f x : ℚ) : Num))).sum = (((l.map f).sum : ℚ) : Num) := by
  induction l with
  | nil => rfl
  | cons x l ih => simp only [List.map_cons, List.sum_cons, ih]; rfl

theorem forall2_mem_left {A B : Type} {R : A → B → Prop} {l : List A} {l' : List B} (h : List.Forall₂ R l l') {x : A} (hx : x ∈ l) :
    ∃ y ∈ l', R x y := by
  induction h with
  | nil => cases hx
  | cons hd _ ih =>
    rcases List.mem_cons.1 hx with rfl | hx
    · exact ⟨_, List.mem_cons_self .., hd⟩
    · obtain ⟨y, h1, h2⟩ := ih hx
      exact ⟨y, List.mem_cons_of_mem _ h1, h2⟩

theorem forall2_eq_map {A B : Type} {R : A → B → Prop} {l : List A} {l' : List B} (h : List.Forall₂ R l l') {f : A → B}
    (hf : ∀ x ∈ l, ∀ y, R x y → y = f x) : l' = l.map f := by
  induction h with
  | nil => rfl
  | cons hd _ ih =>
    rw [List.map_cons, hf _ (List.mem_cons_self ..) _ hd, ih (fun x hx => hf x (List.mem_cons_of_mem _ hx))]

theorem valuesOf_ne_bot (d : Dict V ℚ) (v : V) : valuesOf d v ≠ ⊥ := by
  unfold valuesOf; exact WithBot.coe_ne_bot

theorem sumSkipNaN_valuesOf (d : Dict V ℚ) (s : Finset V) : sumSkipNaN (valuesOf d) s = ∑ v ∈ s, (d.get? v).getD 0 := rfl

/-- right counts give right results -/
theorem results_of_counts {s : ElecWorld V P} {i : ℕ} {e : Elec V} {a : Assignment V P} (ha : a.Coherent) {counts : Dict String (Dict P Num)} {r : ElectionVal P}
    (he : s.elecs[i]? = some e) (hc : ∀ party ∈ e.parties, ∃ t, counts.get? party = some t ∧ CountOK s i a party t)
    (h : electionResults (e.parties.map (fun p => (p, p))) counts a.parts.keys = .ok r) :
    e.Knows e.parties a ∧ ResultsOf e.parties e.held a r := by
  obtain ⟨r1, r2, r3, r4⟩ := electionResults_ok ha.parts_wf h
  have hval : ∀ party ∈ e.parties, ∃ t d, counts.get? party = some t ∧ e.tallies.get? party = some (.values d) ∧ (∀ v ∈ a.mapping.keys, v ∈ d.keys) ∧
      (∀ k ∈ t.keys, k ∈ a.parts.keys) ∧ ∀ k x, t.get? k = some x → x = ((∑ v ∈ a.partOf k, e.held party v : ℚ) : Num) := by
    intro party hp
    obtain ⟨t, h1, e', d, h2, h3, h4, h5⟩ := hc party hp
    rw [he] at h2; cases h2
    obtain ⟨k1, k2, k3⟩ := h5 (fun v _ => valuesOf_ne_bot d v)
    refine ⟨t, d, h1, h3, h4, k3, ?_⟩
    intro k x hx
    rw [k1 k x hx, sumSkipNaN_valuesOf]
    unfold Elec.held
    rw [h3]
  have hkey : ∀ k ∈ a.parts.keys, ∀ party ∈ e.parties, ∀ t, counts.get? party = some t → k ∈ t.keys := by
    intro k hk party hp t ht
    obtain ⟨cs, c1, c2⟩ := r3 k hk
    rw [List.forall₂_map_left_iff] at c1
    obtain ⟨c, -, u, u1, u2⟩ := forall2_mem_left c1 hp
    rw [r1, ht] at u1; cases u1
    exact Dict.mem_keys_iff.2 ⟨c, u2⟩
  refine ⟨fun party hp => by obtain ⟨t, d, -, h2, h3, -⟩ := hval party hp; exact ⟨d, h2, h3⟩, r2, ?_, ?_⟩
  · intro party hp
    obtain ⟨t, d, h1, h2, h3, h4, h5⟩ := hval party hp
    refine ⟨t, by rw [r1]; exact h1, fun k => ⟨h4 k, fun hk => hkey k hk party hp t h1⟩, ?_⟩
    intro k hk
    obtain ⟨x, hx⟩ := Dict.mem_keys_iff.1 (hkey k hk party hp t h1)
    rw [hx, h5 k x hx]
  · intro k hk
    obtain ⟨cs, c1, c2⟩ := r3 k hk
    rw [List.forall₂_map_left_iff] at c1
    rw [c2, ← sum_coe_num e.parties (fun party => ∑ v ∈ a.partOf k, e.held party v), forall2_eq_map c1]
    rintro party hp y ⟨u, u1, u2⟩
    obtain ⟨t, d, h1, -, -, -, h5⟩ := hval party hp
    rw [r1, h1] at u1; cases u1
    exact h5 k y u2

theorem mem_partOf_keys {a : Assignment V P} {k : P} {v : V} (h : v ∈ a.partOf k) : k ∈ a.parts.keys := by
  unfold Assignment.partOf at h
  rcases hk : a.parts.get? k with _ | s
  · rw [hk] at h; simp at h
  · exact Dict.mem_keys_iff.2 ⟨s, hk⟩

/-- the counts in right results are right -/
theorem counts_of_results {s : ElecWorld V P} {i : ℕ} {e : Elec V} {a : Assignment V P} {r : ElectionVal P} (he : s.elecs[i]? = some e)
    (hk : e.Knows e.parties a) (hr : ResultsOf e.parties e.held a r) {party : String} (hp : party ∈ e.parties) {t : Dict P Num}
    (ht : r.totalsForParty.get? party = some t) : CountOK s i a party t := by
  obtain ⟨d, h1, h2⟩ := hk party hp
  obtain ⟨t', h3, h4, h5⟩ := hr.votes party hp
  rw [ht] at h3; cases h3
  refine ⟨e, d, he, h1, h2, fun _ => ⟨?_, ?_, fun k hk' => (h4 k).1 hk'⟩⟩
  · intro k x hx
    rw [h5 k ((h4 k).1 (Dict.mem_keys_iff.2 ⟨x, hx⟩))] at hx
    cases hx
    rw [sumSkipNaN_valuesOf]
    unfold Elec.held
    rw [h1]
  · intro k v hv _
    exact (h4 k).2 (mem_partOf_keys hv)

/-- a lookup keeps the invariant, and caches what it returns -/
theorem electionItem_inv (limit : ℕ) (name : String) (p : ℕ) (s : ElecWorld V P) (hs : ElecInv s) :
    ElecInv (electionItem limit name p s).2 ∧
    ∀ r, (electionItem limit name p s).1 = .ok r → (((electionItem limit name p s).2).cache p).get? name = some r := by
  induction limit generalizing name p s with
  | zero => exact ⟨hs, fun r h => by cases h⟩
  | succ limit ih =>
    unfold electionItem
    rcases hc : (s.cache p).get? name with _ | r
    swap
    · exact ⟨hs, fun r' h => by cases h; exact hc⟩
    rcases ho : s.objs[p]? with _ | o
    · exact ⟨hs, fun r h => by cases h⟩
    simp only
    rcases hu : o.updaters.get? name with _ | i
    · exact ⟨hs, fun r h => by cases h⟩
    simp only
    rcases he : s.elecs[i]? with _ | e
    · exact ⟨hs, fun r h => by cases h⟩
    simp only
    have hom : o ∈ s.objs := List.mem_of_getElem? ho
    have hco := hs.coherent p o ho
    have key : ElecInv (callElection (electionItem limit) i o e s).2 ∧ LookupExt s (callElection (electionItem limit) i o e s).2 ∧
        ∀ r, (callElection (electionItem limit) i o e s).1 = .ok r → ∃ e', (callElection (electionItem limit) i o e s).2.elecs[i]? = some e' ∧
          e'.Knows e'.parties o.plan ∧ ResultsOf e'.parties e'.held o.plan r := by
      unfold callElection
      have hfin : ∀ (previous : Option (Dict String (Dict P Num))) (t : ElecWorld V P), LookupExt s t → ElecInv t →
          ((o.parent = none ∧ previous = none) ∨ ∃ q o' x, o.parent = some q ∧ o'.plan.Coherent ∧ ElecChild o' o ∧ previous = some x ∧
            ∀ party ∈ e.parties, ∀ u, x.get? party = some u → CountOK t i o'.plan party u) →
          let m := (((electionCounts i o previous e.parties Dict.empty) >>= fun counts =>
            M.lift (electionResults (e.parties.map (fun p => (p, p))) counts o.plan.parts.keys)) t)
          ElecInv m.2 ∧ LookupExt s m.2 ∧ ∀ r, m.1 = .ok r → ∃ e', m.2.elecs[i]? = some e' ∧ e'.Knows e'.parties o.plan ∧ ResultsOf e'.parties e'.held o.plan r := by
        intro previous t ht hti hprev
        have homt : o ∈ t.objs := by rw [ht.objs]; exact hom
        obtain ⟨h2, h3⟩ := electionCounts_ext i o previous e.parties Dict.empty t homt
        rcases h4 : electionCounts i o previous e.parties Dict.empty t with ⟨err | counts, s2⟩
        · intro m
          have hm : m = (.error err, s2) := M.bind_error h4
          rw [h4] at h2 h3
          rw [hm]
          exact ⟨hti.ext h2 h3, ht.trans h2, fun r h => by cases h⟩
        · intro m
          have hm : m = (electionResults (e.parties.map (fun p => (p, p))) counts o.plan.parts.keys, s2) := M.bind_ok h4
          rw [h4] at h2 h3
          rw [hm]
          refine ⟨hti.ext h2 h3, ht.trans h2, ?_⟩
          intro r hr
          obtain ⟨e', h5, h6⟩ := (ht.trans h2).elecs i e he
          have hcn := electionCounts_ok hco e.parties [] Dict.empty counts t s2 homt hprev (by intro party hp; cases hp) h4
          refine ⟨e', h5, ?_⟩
          refine results_of_counts hco h5 (counts := counts) ?_ ?_
          · rw [h6.parties]; exact fun party hp => hcn party (Or.inr hp)
          · rw [h6.parties]; exact hr
      rcases hp : o.parent with _ | q
      · exact hfin none s (LookupExt.refl s) hs (Or.inl ⟨hp, rfl⟩)
      · simp only
        obtain ⟨h2, h2'⟩ := ih e.aliasName q s hs
        have hx := electionItem_ext limit e.aliasName q s
        rcases h1 : electionItem limit e.aliasName q s with ⟨err | r, s1⟩
        · rw [h1] at h2 hx
          have h3 : ((electionItem limit e.aliasName q >>= fun r => pure (some r.totalsForParty)) : M (ElecWorld V P) _) s = (.error err, s1) :=
            M.bind_error h1
          rw [M.bind_error h3]
          exact ⟨h2, hx, fun r h => by cases h⟩
        · rw [h1] at h2 hx h2'
          have h3 : ((electionItem limit e.aliasName q >>= fun r => pure (some r.totalsForParty)) : M (ElecWorld V P) _) s = (.ok (some r.totalsForParty), s1) := by
            rw [M.bind_ok h1]; rfl
          rw [M.bind_ok h3]
          refine hfin _ s1 hx h2 (Or.inr ?_)
          obtain ⟨o', h4, h5⟩ := hs.child p o ho q hp
          refine ⟨q, o', r.totalsForParty, hp, hs.coherent q o' h4, h5, rfl, ?_⟩
          intro party hpar u hu'
          obtain ⟨o'', j, f, k1, k2, k3, k4, k5⟩ := h2.cached q e.aliasName r (h2' r rfl)
          rw [hx.objs, h4] at k1; cases k1
          have hreg := hs.registered p o ho name i e hu he
          rw [h5.updaters, k2] at hreg
          cases hreg
          obtain ⟨e', h6, h7⟩ := hx.elecs i e he
          rw [k3] at h6; cases h6
          exact counts_of_results k3 k4 k5 (by rw [h7.parties]; exact hpar) hu'
    obtain ⟨key1, key2, key3⟩ := key
    rcases h1 : callElection (electionItem limit) i o e s with ⟨err | r, s1⟩
    · rw [h1] at key1
      exact ⟨key1, fun r h => by cases h⟩
    · rw [h1] at key1 key2 key3
      refine ⟨⟨key1.1, key1.2, key1.3, key1.4, ?_⟩, ?_⟩
      · intro q n x hx
        simp only at hx
        by_cases hq : q = p
        · subst hq
          rw [if_pos rfl] at hx
          by_cases hn : n = name
          · subst hn
            rw [Dict.get?_set_self] at hx; cases hx
            obtain ⟨e', k1, k2, k3⟩ := key3 r rfl
            exact ⟨o, i, e', (congrArg (fun l : List (ElecObj V P) => l[q]?) key2.objs).trans ho, hu, k1, k2, k3⟩
          · rw [Dict.get?_set_ne _ _ hn] at hx
            exact key1.cached q n x hx
        · rw [if_neg hq] at hx
          exact key1.cached q n x hx
      · intro r' hr'
        cases hr'
        simp only [if_true]
        rw [Dict.get?_set_self]

/-- the dictionaries that the user passes in are dictionaries, and elections are registered under their alias -/
def ElecOp.Good (elecs : List (Elec V)) : ElecOp V P → Prop
  | .create _ d ups => d.WF ∧ Registered elecs ups
  | .flip _ flips => flips.WF
  | _ => True

/-- what later worlds keep of the elections -/
structure Later (elecs elecs' : List (Elec V)) : Prop where
  len : elecs'.length = elecs.length
  keeps : ∀ (i : ℕ) (e : Elec V), elecs[i]? = some e → ∃ e', elecs'[i]? = some e' ∧ e'.aliasName = e.aliasName ∧ e'.parties = e.parties ∧
    ∀ party d, e.tallies.get? party = some (.values d) → e'.tallies.get? party = some (.values d)

theorem Later.refl (l : List (Elec V)) : Later l l := ⟨rfl, fun _ e h => ⟨e, h, rfl, rfl, fun _ _ h => h⟩⟩

theorem Later.trans {l l' l'' : List (Elec V)} (h : Later l l') (h' : Later l' l'') : Later l l'' := by
  refine ⟨h'.len.trans h.len, fun i e he => ?_⟩
  obtain ⟨e', a1, a2, a3, a4⟩ := h.keeps i e he
  obtain ⟨e'', b1, b2, b3, b4⟩ := h'.keeps i e' a1
  exact ⟨e'', b1, b2.trans a2, b3.trans a3, fun p d hd => b4 p d (a4 p d hd)⟩

theorem LookupExt.later {s s' : ElecWorld V P} (h : LookupExt s s') : Later s.elecs s'.elecs := by
  refine ⟨h.len, fun i e he => ?_⟩
  obtain ⟨e', h1, h2⟩ := h.elecs i e he
  exact ⟨e', h1, h2.aliasName, h2.parties, h2.values⟩

theorem Later.registered {l l' : List (Elec V)} (h : Later l l') {ups : Dict String ℕ} (hr : Registered l ups) : Registered l' ups := by
  intro name i e' h1 h2
  have hi : i < l.length := by
    rw [← h.len]; exact (List.getElem?_eq_some_iff.1 h2).1
  obtain ⟨e'', h3, h4, -⟩ := h.keeps i _ (List.getElem?_eq_getElem hi)
  rw [h2] at h3; cases h3
  rw [h4]
  exact hr name i _ h1 (List.getElem?_eq_getElem hi)

theorem create_shape {s s' : ElecWorld V P} {g : ℕ} {d : Dict V P} {ups : Dict String ℕ} (h : s.create g d ups = .ok s') :
    ∃ a, Assignment.fromDict d = .ok a ∧ a.mapping.keys.toFinset = s.nodes g ∧
      s' = { s with objs := s.objs ++ [⟨g, a, none, Dict.empty, ups⟩], cache := fun q => if q = s.objs.length then Dict.empty else s.cache q } := by
  unfold ElecWorld.create at h
  rw [Py.bind_eq_ok] at h
  obtain ⟨a, ha, h⟩ := h
  split at h
  · cases h
  · rename_i hk
    rw [Py.pure_eq_ok] at h
    exact ⟨a, ha, not_not.1 hk, h.symm⟩

theorem flip_shape {s s' : ElecWorld V P} {p : ℕ} {flips : Dict V P} (h : s.flip p flips = .ok s') :
    ∃ o flows b, s.objs[p]? = some o ∧ flowsFromChanges o.plan.mapping flips = .ok flows ∧ o.plan.flip flips = .ok b ∧
      s' = { s with objs := s.objs ++ [⟨o.graph, b, some p, flows, o.updaters⟩], cache := fun q => if q = s.objs.length then Dict.empty else s.cache q } := by
  unfold ElecWorld.flip at h
  rcases ho : s.objs[p]? with _ | o
  · rw [ho] at h; cases h
  · rw [ho] at h
    rw [Py.bind_eq_ok] at h
    obtain ⟨o', ho', h⟩ := h
    cases ho'
    rw [Py.bind_eq_ok] at h
    obtain ⟨flows, hf, h⟩ := h
    rw [Py.bind_eq_ok] at h
    obtain ⟨b, hb, h⟩ := h
    rw [Py.pure_eq_ok] at h
    exact ⟨o, flows, b, rfl, hf, hb, h.symm⟩

theorem step_elecs (s : ElecWorld V P) (op : ElecOp V P) : Later s.elecs (s.step op).elecs := by
  rcases op with ⟨g, v, n, x⟩ | ⟨g, d, ups⟩ | ⟨p, flips⟩ | ⟨limit, name, p⟩ | p
  · exact Later.refl _
  · unfold ElecWorld.step
    rcases h : s.create g d ups with err | s'
    · simp only [h]; exact Later.refl _
    · simp only [h]
      obtain ⟨a, -, -, rfl⟩ := create_shape h
      exact Later.refl _
  · unfold ElecWorld.step
    rcases h : s.flip p flips with err | s'
    · simp only [h]; exact Later.refl _
    · simp only [h]
      obtain ⟨o, flows, b, -, -, -, rfl⟩ := flip_shape h
      exact Later.refl _
  · exact (electionItem_ext limit name p s).later
  · exact Later.refl _

theorem run_elecs (s : ElecWorld V P) (ops : List (ElecOp V P)) : Later s.elecs (s.run ops).elecs := by
  induction ops generalizing s with
  | nil => exact Later.refl _
  | cons op ops ih => exact (step_elecs s op).trans (ih (s.step op))

theorem step_nodes (s : ElecWorld V P) (op : ElecOp V P) : (s.step op).nodes = s.nodes := by
  rcases op with ⟨g, v, n, x⟩ | ⟨g, d, ups⟩ | ⟨p, flips⟩ | ⟨limit, name, p⟩ | p
  · rfl
  · unfold ElecWorld.step
    rcases h : s.create g d ups with err | s'
    · simp only [h]
    · simp only [h]
      obtain ⟨a, -, -, rfl⟩ := create_shape h
      rfl
  · unfold ElecWorld.step
    rcases h : s.flip p flips with err | s'
    · simp only [h]
    · simp only [h]
      obtain ⟨o, flows, b, -, -, -, rfl⟩ := flip_shape h
      rfl
  · exact (electionItem_ext limit name p s).nodes
  · rfl

/-- adding a partition with an empty cache -/
theorem ElecInv.add {s : ElecWorld V P} (hs : ElecInv s) {o : ElecObj V P} (h1 : o.plan.Coherent)
    (h2 : ∀ v, v ∈ o.plan.mapping.keys ↔ v ∈ s.nodes o.graph)
    (h3 : ∀ q, o.parent = some q → ∃ o', s.objs[q]? = some o' ∧ ElecChild o' o) (h4 : Registered s.elecs o.updaters) :
    ElecInv { s with objs := s.objs ++ [o], cache := fun q => if q = s.objs.length then Dict.empty else s.cache q } := by
  have hold : ∀ {q : ℕ} {x : ElecObj V P}, s.objs[q]? = some x → (s.objs ++ [o])[q]? = some x := by
    intro q x hq
    rw [List.getElem?_append_left (List.getElem?_eq_some_iff.1 hq).1]; exact hq
  have hnew : ∀ {q : ℕ} {x : ElecObj V P}, (s.objs ++ [o])[q]? = some x → s.objs[q]? = some x ∨ x = o := by
    intro q x hq
    rcases lt_or_ge q s.objs.length with hlt | hge
    · rw [List.getElem?_append_left hlt] at hq; exact Or.inl hq
    · rw [List.getElem?_append_right hge] at hq
      right
      have := List.mem_of_getElem? hq
      simpa using this
  refine ⟨?_, ?_, ?_, ?_, ?_⟩
  · intro p x hx
    rcases hnew hx with hx | rfl
    · exact hs.coherent p x hx
    · exact h1
  · intro p x hx
    rcases hnew hx with hx | rfl
    · exact hs.covers p x hx
    · exact h2
  · intro p x hx q hq
    rcases hnew hx with hx | rfl
    · obtain ⟨o', k1, k2⟩ := hs.child p x hx q hq
      exact ⟨o', hold k1, k2⟩
    · obtain ⟨o', k1, k2⟩ := h3 q hq
      exact ⟨o', hold k1, k2⟩
  · intro p x hx
    rcases hnew hx with hx | rfl
    · exact hs.registered p x hx
    · exact h4
  · intro p name r hr
    simp only at hr
    split at hr
    · cases hr
    · obtain ⟨x, i, e, k1, k2⟩ := hs.cached p name r hr
      exact ⟨x, i, e, hold k1, k2⟩

theorem elec_step_inv (s : ElecWorld V P) (op : ElecOp V P) (hs : ElecInv s) (hop : op.Good s.elecs) : ElecInv (s.step op) := by
  rcases op with ⟨g, v, n, x⟩ | ⟨g, d, ups⟩ | ⟨p, flips⟩ | ⟨limit, name, p⟩ | p
  · exact ⟨hs.1, hs.2, hs.3, hs.4, hs.5⟩
  · unfold ElecWorld.step
    rcases h : s.create g d ups with err | s'
    · simp only [h]; exact hs
    · simp only [h]
      obtain ⟨a, ha, hk, rfl⟩ := create_shape h
      obtain ⟨a', h1, h2, h3, -⟩ := fromDict_ok hop.1
      rw [ha] at h1; cases h1
      refine hs.add h2 ?_ (fun q hq => by cases hq) hop.2
      intro v
      rw [← hk, List.mem_toFinset]
  · unfold ElecWorld.step
    rcases h : s.flip p flips with err | s'
    · simp only [h]; exact hs
    · simp only [h]
      obtain ⟨o, flows, b, ho, hf, hb, rfl⟩ := flip_shape h
      have hsp := flip_ok (hs.coherent p o ho) hop hb
      refine hs.add hsp.coherent ?_ ?_ (hs.registered p o ho)
      · intro v
        rw [flip_keys hsp v]; exact hs.covers p o ho v
      · intro q hq
        cases hq
        exact ⟨o, ho, rfl, rfl, flips, hsp, flowsFromChanges_ok hop hf⟩
  · exact (electionItem_inv limit name p s hs).1
  · have hmod : ∀ (q : ℕ) (x : ElecObj V P), (s.objs.modify p (fun o => { o with parent := none }))[q]? = some x →
        ∃ o, s.objs[q]? = some o ∧ (x = o ∨ x = { o with parent := none }) := by
      intro q x hx
      rw [List.getElem?_modify] at hx
      rcases ho : s.objs[q]? with _ | o
      · rw [ho] at hx; simp at hx
      · rw [ho] at hx
        refine ⟨o, rfl, ?_⟩
        by_cases hpq : p = q
        · right; simp [hpq] at hx; exact hx.symm
        · left; simp [hpq] at hx; exact hx.symm
    have hback : ∀ (q : ℕ) (o : ElecObj V P), s.objs[q]? = some o → ∃ x, (s.objs.modify p (fun o => { o with parent := none }))[q]? = some x ∧
        (x = o ∨ x = { o with parent := none }) := by
      intro q o ho
      rw [List.getElem?_modify, ho]
      by_cases hpq : p = q
      · exact ⟨{ o with parent := none }, by simp [hpq], Or.inr rfl⟩
      · exact ⟨o, by simp [hpq], Or.inl rfl⟩
    refine ⟨?_, ?_, ?_, ?_, ?_⟩
    · intro q x hx
      obtain ⟨o, ho, rfl | rfl⟩ := hmod q x hx
      · exact hs.coherent q _ ho
      · exact hs.coherent q o ho
    · intro q x hx
      obtain ⟨o, ho, rfl | rfl⟩ := hmod q x hx
      · exact hs.covers q _ ho
      · exact hs.covers q o ho
    · intro q x hx y hy
      obtain ⟨o, ho, rfl | rfl⟩ := hmod q x hx
      · obtain ⟨o', k1, k2⟩ := hs.child q _ ho y hy
        obtain ⟨z, z1, rfl | rfl⟩ := hback y o' k1
        · exact ⟨_, z1, k2⟩
        · exact ⟨_, z1, k2.1, k2.2, k2.3⟩
      · cases hy
    · intro q x hx
      obtain ⟨o, ho, rfl | rfl⟩ := hmod q x hx
      · exact hs.registered q _ ho
      · exact hs.registered q o ho
    · intro q name r hr
      obtain ⟨o, i, e, k1, k2, k3, k4, k5⟩ := hs.cached q name r hr
      obtain ⟨z, z1, rfl | rfl⟩ := hback q o k1
      · exact ⟨_, i, e, z1, k2, k3, k4, k5⟩
      · exact ⟨_, i, e, z1, k2, k3, k4, k5⟩

theorem ElecOp.Good.later {elecs elecs' : List (Elec V)} (h : Later elecs elecs') {op : ElecOp V P} (hop : op.Good elecs) : op.Good elecs' := by
  rcases op with ⟨g, v, n, x⟩ | ⟨g, d, ups⟩ | ⟨p, flips⟩ | ⟨limit, name, p⟩ | p
  · trivial
  · exact ⟨hop.1, h.registered hop.2⟩
  · exact hop
  · trivial
  · trivial

theorem elec_run_inv (s : ElecWorld V P) (ops : List (ElecOp V P)) (hs : ElecInv s) (hops : ∀ op ∈ ops, op.Good s.elecs) : ElecInv (s.run ops) := by
  induction ops generalizing s with
  | nil => exact hs
  | cons op ops ih =>
    refine ih (s.step op) (elec_step_inv s op hs (hops op (List.mem_cons_self ..))) ?_
    exact fun o ho => (hops o (List.mem_cons_of_mem _ ho)).later (step_elecs s op)

theorem elec_start_inv (nodes : ℕ → Finset V) (attr : ℕ → V → String → Option ℚ) (elecs : List (Elec V)) :
    ElecInv (ElecWorld.start nodes attr elecs : ElecWorld V P) := by
  refine ⟨?_, ?_, ?_, ?_, ?_⟩
  · intro p o h; simp [ElecWorld.start] at h
  · intro p o h; simp [ElecWorld.start] at h
  · intro p o h; simp [ElecWorld.start] at h
  · intro p o h; simp [ElecWorld.start] at h
  · intro p n r h; cases h

end GC

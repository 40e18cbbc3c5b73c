import Verif.Props.Updaters
import Verif.Lemmas.Election
import Mathlib.Algebra.BigOperators.Field
import Mathlib.Algebra.Order.BigOperators.Group.Finset
import Mathlib.Data.Finset.Powerset
import Mathlib.Tactic.Ring
import Mathlib.Tactic.FieldSimp
import Mathlib.Tactic.Linarith

/-!
# C11, C12: elections
-/

set_option linter.unusedSectionVars false
set_option autoImplicit false

namespace GC

variable {V P : Type} [LinearOrder V] [DecidableEq P]

/-- Number of votes in column `col` among the nodes `s`. -/
def votesIn (q : String → V → ℚ) (col : String) (s : Finset V) : ℚ := ∑ n ∈ s, q col n

/-- Number of votes for all parties among the nodes `s`. -/
def allVotesIn (q : String → V → ℚ) (parties : List (String × String)) (s : Finset V) : ℚ :=
  (parties.map (fun pc => votesIn q pc.2 s)).sum

theorem coe_list_sum (l : List ℚ) : ((l.sum : ℚ) : Num) = (l.map (fun x => ((x : ℚ) : Num))).sum := by
  induction l with
  | nil => rfl
  | cons a l ih => rw [List.sum_cons, List.map_cons, List.sum_cons, WithBot.coe_add, ih]

theorem sum_parts {a : Assignment V P} (ha : a.Coherent) {nodes : Finset V} (hc : a.Covers nodes) (f : V → ℚ) :
    (a.parts.entries.map (fun e => e.2.sum f)).sum = nodes.sum f := by
  have h1 : a.parts.entries.map (fun e => e.2.sum f) = a.parts.keys.map (fun p => (a.partOf p).sum f) := by
    unfold Dict.keys
    rw [List.map_map]
    apply List.map_congr_left
    intro e he
    simp only [Function.comp]
    rw [get?_partOf (Dict.get?_of_mem_entries ha.parts_wf (k := e.1) (v := e.2) he)]
  rw [h1, ← List.sum_toFinset _ ha.parts_wf]
  rw [← Finset.sum_fiberwise_of_maps_to (s := nodes) (t := a.parts.keys.toFinset.image some)
    (g := fun n => a.mapping.get? n)]
  · rw [Finset.sum_image (by intro x _ y _ h; exact Option.some.inj h)]
    apply Finset.sum_congr rfl
    intro p _
    apply Finset.sum_congr _ (fun _ _ => rfl)
    ext n
    rw [ha.mem_partOf, Finset.mem_filter]
    constructor
    · exact fun h => ⟨(hc n).1 (Dict.mem_keys_iff.2 ⟨p, h⟩), h⟩
    · exact And.right
  · intro n hn
    obtain ⟨p, hp⟩ := Dict.mem_keys_iff.1 ((hc n).2 hn)
    rw [hp]
    exact Finset.mem_image_of_mem _ (List.mem_toFinset.2 (ha.complete n p hp))

section
variable {D : GraphData V} {ups : List Key} {ops : List (Op V P)}

theorem forall₂_counts {parties : List (String × String)} {a : Assignment V P} {q : String → V → ℚ}
    {r : ElectionVal P} {part : P} {s : Finset V} {cs : List Num}
    (hex : ∀ pc ∈ parties, ∀ d, r.totalsForParty.get? pc.1 = some d → ∀ y, d.get? part = some y →
      y = ((votesIn q pc.2 s : ℚ) : Num))
    (h : List.Forall₂ (fun pc c => ∃ d, r.totalsForParty.get? pc.1 = some d ∧ d.get? part = some c) parties cs) :
    cs = parties.map (fun pc => ((votesIn q pc.2 s : ℚ) : Num)) := by
  induction h with
  | nil => rfl
  | @cons pc c ps cs h1 h2 ih =>
    obtain ⟨d, hd, hc⟩ := h1
    rw [List.map_cons, ← ih (fun pc hpc => hex pc (List.mem_cons_of_mem _ hpc)),
      hex pc List.mem_cons_self d hd c hc]

theorem forall₂_mem {α β : Type} {R : α → β → Prop} {l : List α} {m : List β} (h : List.Forall₂ R l m) {a : α}
    (ha : a ∈ l) : ∃ b ∈ m, R a b := by
  induction h with
  | nil => simp at ha
  | cons h1 h2 ih =>
    rcases List.mem_cons.1 ha with rfl | ha
    · exact ⟨_, List.mem_cons_self, h1⟩
    · obtain ⟨b, hb, hr⟩ := ih ha
      exact ⟨b, List.mem_cons_of_mem _ hb, hr⟩

/-- **C11.** For vote columns without NaN and distinct party names, whenever the lookup of an election returns: each
party's count in each district is its number of votes there, totals are the sum over all parties, each percentage is
votes / total (NaN when the total is not positive), `counts` lists the districts in order, `total_votes` is the number
of votes cast in the graph and the statewide percentage is the share of the summed votes. -/
theorem C11_election_exact (hD : D.graph.WF) (hops : ∀ op ∈ ops, op.WF) {p : ℕ} {v : View V P}
    (hv : (Heap.after D ups ops).frame.view p = some v) (limit : ℕ) (parties : List (String × String))
    (hnd : (parties.map (·.1)).Nodup) (q : String → V → ℚ)
    (hq : ∀ pc ∈ parties, ∀ n, D.col pc.2 n = ((q pc.2 n : ℚ) : Num))
    (x : Val V P) (hx : (Heap.after D ups ops).lookup p (.election parties) limit = .ok x) :
    ∃ r, x = .election r ∧ r.regions = v.assignment.parts.keys ∧
      (∀ pc ∈ parties, ∀ part s, v.assignment.parts.get? part = some s →
        (∃ c, r.totalsForParty.get? pc.1 = some c ∧ c.get? part = some ((votesIn q pc.2 s : ℚ) : Num)) ∧
        r.percent pc.1 part = .ok (if 0 < allVotesIn q parties s then
          ((votesIn q pc.2 s / allVotesIn q parties s : ℚ) : Num) else ⊥)) ∧
      (∀ part s, v.assignment.parts.get? part = some s → r.totals.get? part = some ((allVotesIn q parties s : ℚ) : Num)) ∧
      (∀ pc ∈ parties, r.counts pc.1 = .ok (v.assignment.parts.values.map (fun s => ((votesIn q pc.2 s : ℚ) : Num)))) ∧
      r.totalVotes = ((allVotesIn q parties D.graph.nodes : ℚ) : Num) ∧
      (∀ pc ∈ parties, r.percentOverall pc.1 =
        if allVotesIn q parties D.graph.nodes = 0 then .error .zeroDivision
        else .ok ((votesIn q pc.2 D.graph.nodes / allVotesIn q parties D.graph.nodes : ℚ) : Num)) := by
  obtain ⟨r, rfl, hr⟩ := (lookup_correct hD hops hv hx).election
  obtain ⟨hi, hd, -⟩ := after_inv (P := P) (ups := ups) hD hops
  have hc := hi.frame.coherent p v hv
  have hcov := hi.frame.covers p v hv
  rw [hd] at hcov
  -- counts
  have hex : ∀ part s, v.assignment.parts.get? part = some s → ∀ pc ∈ parties, ∀ d,
      r.totalsForParty.get? pc.1 = some d → ∀ y, d.get? part = some y → y = ((votesIn q pc.2 s : ℚ) : Num) := by
    intro part s hs pc hpc d hd y hy
    obtain ⟨d', hd', ht⟩ := hr.counts pc.1 pc.2 hpc hnd
    rw [hd] at hd'; cases hd'
    obtain ⟨s', hs', hy'⟩ := (tally_exact (hq pc hpc) ht).1 part y hy
    rw [hs] at hs'; cases hs'
    exact hy'
  have htot : ∀ part s, v.assignment.parts.get? part = some s →
      r.totals.get? part = some ((allVotesIn q parties s : ℚ) : Num) ∧
      ∀ pc ∈ parties, ∃ c, r.totalsForParty.get? pc.1 = some c ∧ c.get? part = some ((votesIn q pc.2 s : ℚ) : Num) := by
    intro part s hs
    obtain ⟨cs, h1, h2⟩ := hr.totals part (Dict.mem_keys_iff.2 ⟨s, hs⟩)
    have hcs := forall₂_counts (a := v.assignment) (hex part s hs) h1
    refine ⟨?_, ?_⟩
    · rw [h2, hcs]
      unfold allVotesIn
      rw [coe_list_sum, List.map_map]
      rfl
    · intro pc hpc
      obtain ⟨c, -, d, hd, hc⟩ := forall₂_mem h1 hpc
      exact ⟨d, hd, by rw [hc, hex part s hs pc hpc d hd c hc]⟩
  have htwf : r.totals.WF := by
    unfold Dict.WF
    rw [hr.totalsKeys]; exact hc.parts_wf
  have hcounts : ∀ pc ∈ parties, r.counts pc.1 =
      .ok (v.assignment.parts.values.map (fun s => ((votesIn q pc.2 s : ℚ) : Num))) := by
    intro pc hpc
    unfold ElectionVal.counts
    rw [hr.regions]
    rw [Py.mapM_ok (g := fun part => ((votesIn q pc.2 (v.assignment.partOf part) : ℚ) : Num))]
    · congr 1
      unfold Dict.keys Dict.values
      rw [List.map_map, List.map_map]
      apply List.map_congr_left
      intro e he
      simp only [Function.comp]
      rw [get?_partOf (Dict.get?_of_mem_entries hc.parts_wf (k := e.1) (v := e.2) he)]
    · intro part hpart
      obtain ⟨s, hs⟩ := Dict.mem_keys_iff.1 hpart
      obtain ⟨c, h1, h2⟩ := (htot part s hs).2 pc hpc
      rw [Dict.get_eq_ok_iff.2 h1]
      simp only [bind, Except.bind]
      rw [Dict.get_eq_ok_iff.2 h2, get?_partOf hs]
  have hsum1 : ∀ col, (v.assignment.parts.values.map (fun s => votesIn q col s)).sum = votesIn q col D.graph.nodes := by
    intro col
    have := sum_parts hc hcov (q col)
    unfold Dict.values
    rw [List.map_map]
    exact this
  have hsum2 : (v.assignment.parts.values.map (fun s => allVotesIn q parties s)).sum =
      allVotesIn q parties D.graph.nodes := by
    unfold allVotesIn
    clear hcounts hex htot hr hx hq hnd
    induction parties with
    | nil => simp
    | cons pc ps ih =>
      simp only [List.map_cons, List.sum_cons]
      rw [← ih, ← hsum1, ← List.sum_map_add]
  have hregs : v.assignment.parts.keys.map (fun part => ((allVotesIn q parties (v.assignment.partOf part) : ℚ) : Num)) =
      (v.assignment.parts.values.map (fun s => allVotesIn q parties s)).map (fun x => ((x : ℚ) : Num)) := by
    unfold Dict.keys Dict.values
    rw [List.map_map, List.map_map, List.map_map]
    apply List.map_congr_left
    intro e he
    simp only [Function.comp]
    rw [get?_partOf (Dict.get?_of_mem_entries hc.parts_wf (k := e.1) (v := e.2) he)]
  refine ⟨r, rfl, hr.regions, ?_, fun part s hs => (htot part s hs).1, hcounts, ?_, ?_⟩
  · intro pc hpc part s hs
    obtain ⟨ht, hcs⟩ := htot part s hs
    obtain ⟨c, h1, h2⟩ := hcs pc hpc
    refine ⟨⟨c, h1, h2⟩, ?_⟩
    unfold ElectionVal.percent ElectionVal.percentsForParty
    rw [Dict.get_eq_ok_iff.2 h1]
    obtain ⟨d, g1, g2⟩ := getPercents_ok (counts := c) htwf (by
      intro part' t ht' _
      have : part' ∈ v.assignment.parts.keys := by
        rw [← hr.totalsKeys]; exact Dict.mem_keys_iff.2 ⟨t, ht'⟩
      obtain ⟨s', hs'⟩ := Dict.mem_keys_iff.1 this
      obtain ⟨c', k1, k2⟩ := (htot part' s' hs').2 pc hpc
      rw [h1] at k1; cases k1
      exact ⟨_, k2⟩)
    simp only [bind, Except.bind]
    rw [g1]
    simp only
    rw [Dict.get_eq_ok_iff, g2 part _ ht, h2]
    congr 1
    have hgt : Num.gt ((allVotesIn q parties s : ℚ) : Num) 0 = true ↔ 0 < allVotesIn q parties s := by
      show decide (0 < allVotesIn q parties s) = true ↔ _
      rw [decide_eq_true_iff]
    by_cases h : 0 < allVotesIn q parties s
    · rw [if_pos (hgt.2 h), if_pos h]; rfl
    · rw [if_neg (fun h' => h (hgt.1 h')), if_neg h]
  · unfold ElectionVal.totalVotes
    have : r.totals.values = v.assignment.parts.keys.map
        (fun part => ((allVotesIn q parties (v.assignment.partOf part) : ℚ) : Num)) := by
      rw [← hr.totalsKeys]
      unfold Dict.keys Dict.values
      rw [List.map_map]
      apply List.map_congr_left
      intro e he
      simp only [Function.comp]
      have he' := Dict.get?_of_mem_entries htwf (k := e.1) (v := e.2) he
      have : e.1 ∈ v.assignment.parts.keys := by
        rw [← hr.totalsKeys]; exact Dict.mem_keys_iff.2 ⟨_, he'⟩
      obtain ⟨s, hs⟩ := Dict.mem_keys_iff.1 this
      rw [(htot e.1 s hs).1] at he'
      rw [get?_partOf hs]
      exact (Option.some.inj he').symm
    rw [this, hregs, ← coe_list_sum, hsum2]
  · intro pc hpc
    unfold ElectionVal.percentOverall
    rw [hcounts pc hpc]
    simp only [bind, Except.bind]
    rw [hr.regions, Py.mapM_ok (g := fun part => ((allVotesIn q parties (v.assignment.partOf part) : ℚ) : Num))]
    · simp only
      rw [hregs, ← coe_list_sum, hsum2]
      have : (v.assignment.parts.values.map (fun s => ((votesIn q pc.2 s : ℚ) : Num))).sum =
          ((votesIn q pc.2 D.graph.nodes : ℚ) : Num) := by
        rw [← hsum1, coe_list_sum, List.map_map]; rfl
      rw [this]
      unfold Num.div
      by_cases h : allVotesIn q parties D.graph.nodes = 0
      · rw [if_pos h, if_pos (by rw [h]; rfl)]
      · rw [if_neg h, if_neg (by
          intro h'
          exact h (WithBot.coe_injective h'))]
        rfl
    · intro part hpart
      obtain ⟨s, hs⟩ := Dict.mem_keys_iff.1 hpart
      rw [Dict.get_eq_ok_iff, (htot part s hs).1, get?_partOf hs]

/-- **C11 (shares).** In a district with a positive total the percentages of all parties sum to 1. -/
theorem C11_percents_sum_to_one (hD : D.graph.WF) (hops : ∀ op ∈ ops, op.WF) {p : ℕ} {v : View V P}
    (hv : (Heap.after D ups ops).frame.view p = some v) (limit : ℕ) (parties : List (String × String))
    (hnd : (parties.map (·.1)).Nodup) (q : String → V → ℚ)
    (hq : ∀ pc ∈ parties, ∀ n, D.col pc.2 n = ((q pc.2 n : ℚ) : Num))
    (r : ElectionVal P) (hx : (Heap.after D ups ops).lookup p (.election parties) limit = .ok (.election r))
    (part : P) (s : Finset V) (hs : v.assignment.parts.get? part = some s) (hpos : 0 < allVotesIn q parties s) :
    ∃ xs, parties.mapM (fun pc => r.percent pc.1 part) = .ok xs ∧ xs.sum = 1 := by
  obtain ⟨r', hr', -, h, -⟩ := C11_election_exact hD hops hv limit parties hnd q hq _ hx
  cases hr'
  refine ⟨_, Py.mapM_ok (g := fun pc => ((votesIn q pc.2 s / allVotesIn q parties s : ℚ) : Num)) ?_, ?_⟩
  · intro pc hpc
    rw [(h pc hpc part s hs).2, if_pos hpos]
  · have : (parties.map (fun pc => votesIn q pc.2 s / allVotesIn q parties s)).sum = 1 := by
      have h2 : ∀ l : List (String × String), (l.map (fun pc => votesIn q pc.2 s / allVotesIn q parties s)).sum =
          (l.map (fun pc => votesIn q pc.2 s)).sum / allVotesIn q parties s := by
        intro l
        induction l with
        | nil => simp
        | cons a l ih => simp only [List.map_cons, List.sum_cons]; rw [ih, add_div]
      rw [h2]
      exact div_self hpos.ne'
    have h3 := congrArg (fun x : ℚ => (x : Num)) this
    rw [coe_list_sum, List.map_map] at h3
    exact h3

/-- **C11 (totality).** The lookup of an election succeeds if neither the partition nor an ancestor has an empty district. -/
theorem C11_election_total (hD : D.graph.WF) (hops : ∀ op ∈ ops, op.WF) {p : ℕ} {v : View V P}
    (hv : (Heap.after D ups ops).frame.view p = some v) (limit : ℕ) (parties : List (String × String))
    (hnd : (parties.map (·.1)).Nodup) (q : String → V → ℚ)
    (hq : ∀ pc ∈ parties, ∀ n, D.col pc.2 n = ((q pc.2 n : ℚ) : Num)) (hk : Key.election parties ∈ ups) (hl : (Heap.after D ups ops).frame.Shallow limit p)
    (hne : ∀ i w part s, i = p ∨ (Heap.after D ups ops).frame.Ancestor p i → (Heap.after D ups ops).frame.view i = some w →
      w.assignment.parts.get? part = some s → s.Nonempty) :
    ∃ x, (Heap.after D ups ops).lookup p (.election parties) limit = .ok x := by
  refine lookup_total hD hops hv hk hl ?_
  show _ ∧ _
  refine ⟨hnd, fun pc hpc => ?_⟩
  rw [(after_inv (ups := ups) hD hops).2.1]
  exact ⟨tallySafe_of (hq pc hpc) (fun i w part s hi => hne i w part s (.inr hi)), filled_of (hq pc hpc) (fun w part s => hne p w part s (.inl rfl))⟩

end

/-! ### C12 -/

/-- `party` has strictly more votes than every other party in `region` (comparisons with NaN are false). -/
def Beats (votes : String → P → Num) (parties : List String) (party : String) (region : P) : Prop :=
  ∀ o ∈ parties, o ≠ party → Num.gt (votes party region) (votes o region) = true

instance (votes : String → P → Num) (parties : List String) (party : String) (region : P) :
    Decidable (Beats votes parties party region) := by unfold Beats; infer_instance

theorem Num.gt_asymm {x y : Num} (h : Num.gt x y = true) : Num.gt y x = false := by
  rcases x with _ | x <;> rcases y with _ | y <;> simp [Num.gt] at h ⊢
  exact h.le

/-- `r` holds the vote table `votes` for the given parties in all its regions. -/
def HasVotes (r : ElectionVal P) (parties : List String) (votes : String → P → Num) : Prop :=
  ∀ party ∈ parties, ∃ c, r.totalsForParty.get? party = some c ∧ ∀ region ∈ r.regions, c.get? region = some (votes party region)

theorem won_eq {r : ElectionVal P} {parties : List String} {votes : String → P → Num} (h : HasVotes r parties votes)
    {party : String} (hp : party ∈ parties) {region : P} (hr : region ∈ r.regions) :
    r.won parties party region = .ok (decide (Beats votes parties party region)) := by
  unfold ElectionVal.won
  obtain ⟨c, hc, hc'⟩ := h party hp
  have key : ∀ (l : List String) (b : Bool), (∀ o ∈ l, o ∈ parties) →
      l.foldlM (fun (ok : Bool) opponent =>
        if ok then do
          let c ← r.totalsForParty.get party
          let x ← c.get region
          let c' ← r.totalsForParty.get opponent
          let y ← c'.get region
          return Num.gt x y
        else return false) b =
      (.ok (b && decide (∀ o ∈ l, Num.gt (votes party region) (votes o region) = true)) : Py Bool) := by
    intro l
    induction l with
    | nil => intro b _; simp [pure, Except.pure]
    | cons o l ih =>
      intro b hl
      rw [List.foldlM_cons]
      obtain ⟨d, hd, hd'⟩ := h o (hl o List.mem_cons_self)
      have ih' := fun b => ih b (fun o ho => hl o (List.mem_cons_of_mem _ ho))
      cases b
      · simp only [Bool.false_eq_true, if_false]
        exact ih' false
      · have hstep : (if true then do
            let c ← r.totalsForParty.get party
            let x ← c.get region
            let c' ← r.totalsForParty.get o
            let y ← c'.get region
            return Num.gt x y
          else return false : Py Bool) = .ok (Num.gt (votes party region) (votes o region)) := by
          simp only [if_true, Dict.get_eq_ok_iff.2 hc, bind, Except.bind, Dict.get_eq_ok_iff.2 (hc' region hr),
            Dict.get_eq_ok_iff.2 hd, Dict.get_eq_ok_iff.2 (hd' region hr), pure, Except.pure]
        rw [hstep]
        refine (ih' _).trans ?_
        congr 1
        by_cases hg : Num.gt (votes party region) (votes o region) = true
        · simp [hg]
        · simp [hg]
  rw [key _ true (fun o ho => (List.mem_filter.1 ho).1)]
  congr 1
  rw [Bool.true_and, decide_eq_decide]
  constructor
  · intro h o ho hne
    exact h o (List.mem_filter.2 ⟨ho, by simpa using hne⟩)
  · intro h o ho
    obtain ⟨h1, h2⟩ := List.mem_filter.1 ho
    exact h o h1 (by simpa using h2)

theorem seats_eq {r : ElectionVal P} {parties : List String} {votes : String → P → Num} (h : HasVotes r parties votes)
    {party : String} (hp : party ∈ parties) :
    r.seats parties party = .ok (r.regions.filter (fun region => Beats votes parties party region)).length := by
  unfold ElectionVal.seats
  rw [Py.mapM_ok (fun region hr => won_eq h hp hr)]
  simp only [bind, Except.bind, pure, Except.pure]
  congr 1
  rw [List.filter_map, List.length_map]
  rfl

/-- Number of winners of one region, over a list of distinct parties. -/
theorem winners_le_one (votes : String → P → Num) (parties : List String) (hnd : parties.Nodup) (region : P) :
    (parties.filter (fun party => Beats votes parties party region)).length ≤ 1 := by
  by_contra hlt
  push Not at hlt
  have hnd' := hnd.filter (fun party => decide (Beats votes parties party region))
  rcases hl : parties.filter (fun party => decide (Beats votes parties party region)) with _ | ⟨a, _ | ⟨b, l⟩⟩
  · rw [hl] at hlt; simp at hlt
  · rw [hl] at hlt; simp at hlt
  · have ha : a ∈ parties.filter (fun party => decide (Beats votes parties party region)) := by rw [hl]; simp
    have hb : b ∈ parties.filter (fun party => decide (Beats votes parties party region)) := by rw [hl]; simp
    rw [List.mem_filter, decide_eq_true_iff] at ha hb
    rw [hl] at hnd'
    have hab : a ≠ b := by
      rintro rfl
      simp at hnd'
    have h1 := ha.2 b hb.1 hab.symm
    have h2 := hb.2 a ha.1 hab
    rw [Num.gt_asymm h1] at h2
    exact absurd h2 (by decide)

/-- Double counting. -/
theorem sum_filter_comm (B : String → P → Bool) (parties : List String) (regions : List P) :
    (parties.map (fun p => (regions.filter (fun r => B p r)).length)).sum =
      (regions.map (fun r => (parties.filter (fun p => B p r)).length)).sum := by
  induction parties with
  | nil => simp
  | cons p ps ih =>
    simp only [List.map_cons, List.sum_cons]
    rw [ih]
    clear ih
    induction regions with
    | nil => simp
    | cons r rs ih =>
      rw [List.map_cons, List.sum_cons, List.map_cons, List.sum_cons, ← ih, List.filter_cons, List.filter_cons]
      by_cases hB : B p r = true
      · rw [if_pos hB, if_pos hB, List.length_cons, List.length_cons]
        omega
      · rw [if_neg hB, if_neg hB]
        omega

/-- **C12.** For every vote table (NaN allowed) and distinct parties: no two parties win the same region; a party tied
with another does not win; the seats of all parties sum to at most the number of regions, with equality iff every region
has a party strictly ahead of all others. -/
theorem C12_one_winner (r : ElectionVal P) (parties : List String) (votes : String → P → Num)
    (h : HasVotes r parties votes) (hnd : parties.Nodup) :
    (∀ p ∈ parties, ∀ p' ∈ parties, ∀ region ∈ r.regions,
      r.won parties p region = .ok true → r.won parties p' region = .ok true → p = p') ∧
    (∀ p ∈ parties, ∀ p' ∈ parties, ∀ region ∈ r.regions, p ≠ p' → votes p region = votes p' region →
      r.won parties p region = .ok false) ∧
    ∃ seats : List ℕ, parties.mapM (fun p => r.seats parties p) = .ok seats ∧ seats.sum ≤ r.regions.length ∧
      (seats.sum = r.regions.length ↔ ∀ region ∈ r.regions, ∃ p ∈ parties, ∀ o ∈ parties, o ≠ p →
        Num.gt (votes p region) (votes o region) = true) := by
  refine ⟨?_, ?_, ?_⟩
  · intro p hp p' hp' region hr h1 h2
    rw [won_eq h hp hr] at h1
    rw [won_eq h hp' hr] at h2
    have b1 := of_decide_eq_true (Except.ok.inj h1)
    have b2 := of_decide_eq_true (Except.ok.inj h2)
    by_contra hne
    have g1 := b1 p' hp' (Ne.symm hne)
    have g2 := b2 p hp hne
    rw [Num.gt_asymm g1] at g2
    exact absurd g2 (by decide)
  · intro p hp p' hp' region hr hne heq
    rw [won_eq h hp hr]
    congr 1
    rw [decide_eq_false_iff_not]
    intro hb
    have g1 := hb p' hp' hne.symm
    rw [heq] at g1
    have := Num.gt_asymm g1
    rw [g1] at this
    exact absurd this (by decide)
  · refine ⟨_, Py.mapM_ok (fun p hp => seats_eq h hp), ?_, ?_⟩
    · rw [sum_filter_comm (fun p region => decide (Beats votes parties p region))]
      have : ∀ l : List P, (l.map (fun region =>
          (parties.filter (fun p => decide (Beats votes parties p region))).length)).sum ≤ l.length := by
        intro l
        induction l with
        | nil => simp
        | cons a l ih =>
          simp only [List.map_cons, List.sum_cons, List.length_cons]
          have := winners_le_one votes parties hnd a
          omega
      exact this _
    · rw [sum_filter_comm (fun p region => decide (Beats votes parties p region))]
      have : ∀ l : List P, ((l.map (fun region =>
          (parties.filter (fun p => decide (Beats votes parties p region))).length)).sum ≤ l.length) ∧
          ((l.map (fun region =>
          (parties.filter (fun p => decide (Beats votes parties p region))).length)).sum = l.length ↔
          ∀ region ∈ l, ∃ p ∈ parties, Beats votes parties p region) := by
        intro l
        induction l with
        | nil => simp
        | cons a l ih =>
          obtain ⟨ih1, ih2⟩ := ih
          simp only [List.map_cons, List.sum_cons, List.length_cons, List.forall_mem_cons]
          have hle := winners_le_one votes parties hnd a
          have hex : (parties.filter (fun p => decide (Beats votes parties p a))).length = 1 ↔
              ∃ p ∈ parties, Beats votes parties p a := by
            constructor
            · intro h1
              obtain ⟨p, hp⟩ := List.exists_mem_of_length_pos (l := parties.filter (fun p => decide (Beats votes parties p a)))
                (by omega)
              rw [List.mem_filter, decide_eq_true_iff] at hp
              exact ⟨p, hp.1, hp.2⟩
            · rintro ⟨p, hp, hb⟩
              have := List.length_pos_of_mem (List.mem_filter (p := fun p => decide (Beats votes parties p a)).2 ⟨hp, decide_eq_true hb⟩)
              omega
          refine ⟨by omega, ?_⟩
          rw [← hex, ← ih2]
          omega
      exact (this _).2

/-! ### Non-vacuity -/

/-- a three-district, three-party table with one clear win, one tie and one NaN -/
def exResults : ElectionVal ℕ :=
  ⟨⟨[("A", ⟨[(1, (5 : ℚ)), (2, (4 : ℚ)), (3, (1 : ℚ))]⟩), ("B", ⟨[(1, (3 : ℚ)), (2, (4 : ℚ)), (3, ⊥)]⟩),
    ("C", ⟨[(1, (1 : ℚ)), (2, (0 : ℚ)), (3, (0 : ℚ))]⟩)]⟩, [1, 2, 3], ⟨[]⟩⟩

example : exResults.seats ["A", "B", "C"] "A" = .ok 1 ∧ exResults.seats ["A", "B", "C"] "B" = .ok 0 ∧
    exResults.won ["A", "B", "C"] "A" 2 = .ok false := by
  refine ⟨?_, ?_, ?_⟩ <;> decide +kernel

example : HasVotes exResults ["A", "B", "C"] (fun party region =>
    ((exResults.totalsForParty.get? party).bind (fun c => c.get? region)).getD ⊥) := by
  intro party hp
  simp only [List.mem_cons, List.not_mem_nil, or_false] at hp
  rcases hp with rfl | rfl | rfl <;>
    exact ⟨_, rfl, by
      intro region hr
      simp only [exResults, List.mem_cons, List.not_mem_nil, or_false] at hr
      rcases hr with rfl | rfl | rfl <;> rfl⟩

example : (Heap.after exData exUps exOps).lookup 2 (.election [("D", "pop"), ("R", "pop")]) 9 =
    .ok (.election ⟨⟨[("D", ⟨[(1, (30 : ℚ)), (2, (70 : ℚ))]⟩), ("R", ⟨[(1, (30 : ℚ)), (2, (70 : ℚ))]⟩)]⟩, [1, 2],
      ⟨[(1, (60 : ℚ)), (2, (140 : ℚ))]⟩⟩) := by decide +kernel

end GC

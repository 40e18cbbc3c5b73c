import Verif.Lemmas.TreeCuts
import Mathlib.Algebra.BigOperators.Group.Finset.Basic

/-!
# The memoization algorithm
-/

set_option linter.unusedSectionVars false
set_option autoImplicit false

namespace GC

variable {V : Type} [LinearOrder V] {S : Type}
variable {T : Graph V} {root : V} {par : V → V} {rank : V → ℕ}

/-- what `successors` returns on a rooted tree -/
structure SuccOk (T : Graph V) (root : V) (par : V → V) (succ : Dict V (List V)) : Prop where
  atRoot : ∃ cs, succ.get? root = some cs ∧ cs.Nodup ∧ cs.toFinset = kids T root par root
  inner : ∀ v ∈ T.nodes, v ≠ root → (kids T root par v).Nonempty →
        ∃ cs, succ.get? v = some cs ∧ cs.Nodup ∧ cs.toFinset = kids T root par v
  leaf : ∀ v ∈ T.nodes, v ≠ root → kids T root par v = ∅ → succ.get? v = none

/-- `pops'` is `pops` followed by the populations of the subtrees of the nodes in `A` -/
def PopsExt (T : Graph V) (root : V) (par : V → V) (pop : V → ℚ) (A : Finset V) (pops pops' : Dict V ℚ) : Prop :=
  ∃ l : List (V × ℚ), pops'.entries = pops.entries ++ l ∧ (l.map (·.1)).Nodup ∧ (∀ y, y ∈ l.map (·.1) ↔ y ∈ A) ∧
    ∀ e ∈ l, e.2 = popOf pop (sub T root par e.1)

theorem PopsExt.keys {pop : V → ℚ} {A : Finset V} {pops pops' : Dict V ℚ} (h : PopsExt T root par pop A pops pops')
    (y : V) : y ∈ pops'.keys ↔ y ∈ pops.keys ∨ y ∈ A := by
  obtain ⟨l, h1, _, h3, _⟩ := h
  unfold Dict.keys
  rw [h1, List.map_append, List.mem_append, h3]

theorem PopsExt.wf {pop : V → ℚ} {A : Finset V} {pops pops' : Dict V ℚ} (h : PopsExt T root par pop A pops pops')
    (hw : pops.WF) (hd : ∀ y ∈ A, y ∉ pops.keys) : pops'.WF := by
  obtain ⟨l, h1, h2, h3, _⟩ := h
  unfold Dict.WF Dict.keys at *
  rw [h1, List.map_append, List.nodup_append]
  refine ⟨hw, h2, ?_⟩
  intro a ha b hb hab
  subst hab
  exact hd a ((h3 a).1 hb) ha

theorem PopsExt.trans {pop : V → ℚ} {A B : Finset V} {p1 p2 p3 : Dict V ℚ} (h : PopsExt T root par pop A p1 p2)
    (h' : PopsExt T root par pop B p2 p3) (hd : Disjoint A B) : PopsExt T root par pop (A ∪ B) p1 p3 := by
  obtain ⟨l, h1, h2, h3, h4⟩ := h
  obtain ⟨m, k1, k2, k3, k4⟩ := h'
  refine ⟨l ++ m, by rw [k1, h1, List.append_assoc], ?_, ?_, ?_⟩
  · rw [List.map_append, List.nodup_append]
    refine ⟨h2, k2, ?_⟩
    intro a ha b hb hab
    subst hab
    exact Finset.disjoint_left.1 hd ((h3 a).1 ha) ((k3 a).1 hb)
  · intro y
    rw [List.map_append, List.mem_append, h3, k3, Finset.mem_union]
  · intro e he
    rcases List.mem_append.1 he with he | he
    · exact h4 e he
    · exact k4 e he

theorem PopsExt.refl (pop : V → ℚ) (p : Dict V ℚ) : PopsExt T root par pop ∅ p p := ⟨[], by simp⟩

theorem Dict.set_new {K W : Type} [DecidableEq K] {d : Dict K W} {k : K} {v : W} (h : k ∉ d.keys) :
    d.set k v = ⟨d.entries ++ [(k, v)]⟩ := by
  unfold Dict.set
  rw [if_neg]
  simpa [Dict.keys] using h

theorem PopsExt.single {pop : V → ℚ} {p : Dict V ℚ} {x : V} {q : ℚ} (hx : x ∉ p.keys)
    (hq : q = popOf pop (sub T root par x)) : PopsExt T root par pop {x} p (p.set x q) :=
  ⟨[(x, q)], by rw [Dict.set_new hx], by simp, by simp, by simp [hq]⟩

theorem PopsExt.get {pop : V → ℚ} {A : Finset V} {pops pops' : Dict V ℚ} (h : PopsExt T root par pop A pops pops')
    (hw : pops'.WF) {y : V} (hy : y ∈ A) : pops'.get? y = some (popOf pop (sub T root par y)) := by
  obtain ⟨l, h1, _, h3, h4⟩ := h
  obtain ⟨⟨a, b⟩, he, rfl⟩ := List.mem_map.1 ((h3 y).2 hy)
  have hb := h4 _ he
  simp only at hb ⊢
  apply Dict.get?_of_mem_entries hw
  rw [h1, ← hb]
  exact List.mem_append_right _ he

theorem calcPops_list (hRt : Rooted T root par rank) {succ : Dict V (List V)} {pop : V → ℚ} {m : ℕ} {v : V}
    (ih : ∀ x ∈ T.nodes, x ≠ root → (sub T root par x).card ≤ m → ∀ (stack : List V) (pops : Dict V ℚ), pops.WF →
      (∀ y ∈ sub T root par x, y ∉ pops.keys) →
      ∃ k ≤ 2 * (sub T root par x).card, ∃ pops', PopsExt T root par pop (sub T root par x) pops pops' ∧
        ∀ n, calcPopsLoop succ pop (n + k) (x :: stack) pops = calcPopsLoop succ pop n stack pops') :
    ∀ (cs : List V), cs.Nodup → (∀ c ∈ cs, c ∈ kids T root par v ∧ (sub T root par c).card ≤ m) →
      ∀ (stack : List V) (pops : Dict V ℚ), pops.WF →
      (∀ c ∈ cs, ∀ y ∈ sub T root par c, y ∉ pops.keys) →
      ∃ k ≤ 2 * ∑ c ∈ cs.toFinset, (sub T root par c).card, ∃ pops',
        PopsExt T root par pop (cs.toFinset.biUnion (sub T root par)) pops pops' ∧
        ∀ n, calcPopsLoop succ pop (n + k) (cs ++ stack) pops = calcPopsLoop succ pop n stack pops' := by
  intro cs
  induction cs with
  | nil =>
    intro _ _ stack pops _ _
    exact ⟨0, by simp, pops, by simpa using PopsExt.refl pop pops, fun n => rfl⟩
  | cons c cs ihc =>
    intro hnd hk stack pops hw hfr
    rw [List.nodup_cons] at hnd
    obtain ⟨hck, hcm⟩ := hk c (List.mem_cons_self ..)
    have hck' := hck
    simp only [kids, Finset.mem_filter] at hck'
    obtain ⟨k1, hk1, p1, e1, l1⟩ := ih c hck'.1 hck'.2.1 hcm (cs ++ stack) pops hw (hfr c (List.mem_cons_self ..))
    have hw1 := e1.wf hw (hfr c (List.mem_cons_self ..))
    have hdis : ∀ d ∈ cs, Disjoint (sub T root par c) (sub T root par d) := by
      intro d hd
      refine kids_disjoint hRt hck (hk d (List.mem_cons_of_mem _ hd)).1 ?_
      rintro rfl; exact hnd.1 hd
    obtain ⟨k2, hk2, p2, e2, l2⟩ := ihc hnd.2 (fun d hd => hk d (List.mem_cons_of_mem _ hd)) stack p1 hw1 (by
      intro d hd y hy hm
      rcases (e1.keys y).1 hm with h' | h'
      · exact hfr d (List.mem_cons_of_mem _ hd) y hy h'
      · exact Finset.disjoint_left.1 (hdis d hd) h' hy)
    have hnot : c ∉ cs.toFinset := by simpa using hnd.1
    refine ⟨k2 + k1, ?_, p2, ?_, ?_⟩
    · rw [List.toFinset_cons, Finset.sum_insert hnot]
      omega
    · rw [List.toFinset_cons, Finset.biUnion_insert]
      refine e1.trans e2 ?_
      rw [Finset.disjoint_biUnion_right]
      intro d hd
      exact hdis d (List.mem_toFinset.1 hd)
    · intro n
      rw [List.cons_append, ← Nat.add_assoc, l1, l2]

theorem calcPops_node (hRt : Rooted T root par rank) {succ : Dict V (List V)} (hs : SuccOk T root par succ)
    (pop : V → ℚ) : ∀ (m : ℕ), ∀ x ∈ T.nodes, x ≠ root → (sub T root par x).card ≤ m →
      ∀ (stack : List V) (pops : Dict V ℚ), pops.WF → (∀ y ∈ sub T root par x, y ∉ pops.keys) →
      ∃ k ≤ 2 * (sub T root par x).card, ∃ pops', PopsExt T root par pop (sub T root par x) pops pops' ∧
        ∀ n, calcPopsLoop succ pop (n + k) (x :: stack) pops = calcPopsLoop succ pop n stack pops' := by
  intro m
  induction m with
  | zero =>
    intro x hx _ hc
    have : x ∈ sub T root par x := self_mem_sub hx
    rw [Finset.card_eq_zero.1 (Nat.le_zero.1 hc)] at this
    simp at this
  | succ m ih =>
    intro x hx hr hc stack pops hw hfr
    have hxp : x ∉ pops.keys := hfr x (self_mem_sub hx)
    have hxc : pops.contains x = false := by
      rw [Bool.eq_false_iff, Ne, Dict.contains_iff]; exact hxp
    have hcs := card_sub hRt hx
    rcases Finset.eq_empty_or_nonempty (kids T root par x) with hk | hk
    · have hsx : sub T root par x = {x} := by rw [sub_eq hRt hx, hk]; simp
      refine ⟨1, by rw [hsx]; simp, pops.set x (pop x), ?_, ?_⟩
      · rw [hsx]
        exact PopsExt.single hxp (by rw [hsx]; simp [popOf])
      · intro n
        rw [calcPopsLoop, hxc, hs.leaf x hx hr hk]
        rfl
    · obtain ⟨cs, g1, g2, g3⟩ := hs.inner x hx hr hk
      have hmk : ∀ c, c ∈ cs ↔ c ∈ kids T root par x := by intro c; rw [← g3, List.mem_toFinset]
      have hfrc : ∀ c ∈ cs, ∀ y ∈ sub T root par c, y ∉ pops.keys := by
        intro c hc' y hy
        refine hfr y (mem_sub.2 ⟨(mem_sub.1 hy).1, ?_⟩)
        exact Desc.kid ((hmk c).1 hc') (mem_sub.1 hy).2
      have hcnot : ∀ c ∈ cs, pops.contains c = false := by
        intro c hc'
        rw [Bool.eq_false_iff, Ne, Dict.contains_iff]
        have : c ∈ T.nodes := by
          have := (hmk c).1 hc'
          simp only [kids, Finset.mem_filter] at this
          exact this.1
        exact hfrc c hc' c (self_mem_sub this)
      have hfil : cs.filter (fun c => !pops.contains c) = cs := by
        rw [List.filter_eq_self]
        intro c hc'
        rw [hcnot c hc']; rfl
      obtain ⟨c0, hc0⟩ := hk
      have hnall : cs.all (fun c => pops.contains c) = false := by
        rw [List.all_eq_false]
        exact ⟨c0, (hmk c0).2 hc0, by rw [hcnot c0 ((hmk c0).2 hc0)]; simp⟩
      have hle : ∀ c ∈ kids T root par x, (sub T root par c).card ≤ m := by
        intro c hc'
        have := Finset.single_le_sum (f := fun c => (sub T root par c).card) (fun _ _ => Nat.zero_le _) hc'
        omega
      obtain ⟨k, hk1, p1, e1, l1⟩ := calcPops_list hRt ih cs.reverse (List.nodup_reverse.2 g2)
        (fun c hc' => ⟨(hmk c).1 (List.mem_reverse.1 hc'), hle c ((hmk c).1 (List.mem_reverse.1 hc'))⟩)
        (x :: stack) pops hw (fun c hc' => hfrc c (List.mem_reverse.1 hc'))
      rw [List.toFinset_reverse, g3] at hk1 e1
      have hdis : ∀ y ∈ (kids T root par x).biUnion (sub T root par), y ∉ pops.keys := by
        intro y hy
        obtain ⟨c, hc', hy⟩ := Finset.mem_biUnion.1 hy
        exact hfrc c ((hmk c).2 hc') y hy
      have hw1 := e1.wf hw hdis
      have hxnot : x ∉ (kids T root par x).biUnion (sub T root par) := by
        intro hm
        obtain ⟨c, hc', hm⟩ := Finset.mem_biUnion.1 hm
        exact not_mem_kid_sub hRt hc' hm
      have hxp1 : x ∉ p1.keys := by
        rw [e1.keys]; exact fun h' => h'.elim hxp hxnot
      have hxc1 : p1.contains x = false := by
        rw [Bool.eq_false_iff, Ne, Dict.contains_iff]; exact hxp1
      have hcnode : ∀ c ∈ cs, c ∈ (kids T root par x).biUnion (sub T root par) := by
        intro c hc'
        have h1 := (hmk c).1 hc'
        refine Finset.mem_biUnion.2 ⟨c, h1, self_mem_sub ?_⟩
        simp only [kids, Finset.mem_filter] at h1
        exact h1.1
      have hall : cs.all (fun c => p1.contains c) = true := by
        rw [List.all_eq_true]
        intro c hc'
        rw [Dict.contains_iff, e1.keys]
        exact Or.inr (hcnode c hc')
      have hsum : (cs.map (fun c => (p1.get? c).getD 0)).sum + pop x = popOf pop (sub T root par x) := by
        rw [popOf_sub hRt pop hx, add_comm]
        congr 1
        rw [← g3, List.sum_toFinset _ g2]
        congr 1
        apply List.map_congr_left
        intro c hc'
        rw [e1.get hw1 (hcnode c hc')]
        rfl
      refine ⟨1 + k + 1, by rw [hcs]; omega, p1.set x (popOf pop (sub T root par x)), ?_, ?_⟩
      · rw [sub_eq hRt hx, Finset.insert_eq, Finset.union_comm]
        refine e1.trans (PopsExt.single hxp1 ?_) (by simpa using hxnot)
        rw [← Finset.union_comm, ← Finset.insert_eq, ← sub_eq hRt hx]
      · intro n
        show calcPopsLoop succ pop ((n + (1 + k)) + 1) _ _ = _
        rw [calcPopsLoop, hxc, g1]
        simp only [Bool.false_eq_true, if_false, hnall, hfil]
        rw [← Nat.add_assoc, l1, calcPopsLoop, hxc1, g1]
        simp only [Bool.false_eq_true, if_false, hall, if_true, hsum]

theorem calcPops_spec (hRt : Rooted T root par rank) {succ : Dict V (List V)} (hs : SuccOk T root par succ)
    (pop : V → ℚ) {fuel : ℕ} (hf : 2 * T.nodes.card ≤ fuel) :
    ∃ pops, calcPops fuel succ root pop = .ok pops ∧ (pops.entries.map (·.1)).Nodup ∧
      (∀ y, y ∈ pops.entries.map (·.1) ↔ y ∈ T.nodes.erase root) ∧
      ∀ e ∈ pops.entries, e.2 = popOf pop (sub T root par e.1) := by
  obtain ⟨cs, g1, g2, g3⟩ := hs.atRoot
  have hmk : ∀ c, c ∈ cs ↔ c ∈ kids T root par root := by intro c; rw [← g3, List.mem_toFinset]
  obtain ⟨k, hk1, p1, e1, l1⟩ := calcPops_list hRt (m := T.nodes.card) (v := root)
    (calcPops_node hRt hs pop T.nodes.card) cs.reverse (List.nodup_reverse.2 g2)
    (fun c hc => ⟨(hmk c).1 (List.mem_reverse.1 hc), Finset.card_le_card sub_subset⟩)
    [] Dict.empty Dict.wf_empty (by simp)
  rw [List.toFinset_reverse, g3] at hk1 e1
  have hcard := card_sub hRt hRt.root_mem
  rw [sub_root hRt] at hcard
  have hbi : (kids T root par root).biUnion (sub T root par) = T.nodes.erase root := by
    have := sub_eq hRt hRt.root_mem
    rw [sub_root hRt] at this
    have hn : root ∉ (kids T root par root).biUnion (sub T root par) := by
      intro hm
      obtain ⟨c, hc', hm⟩ := Finset.mem_biUnion.1 hm
      exact not_mem_kid_sub hRt hc' hm
    conv_rhs => rw [this]
    rw [Finset.erase_insert hn]
  rw [hbi] at e1
  obtain ⟨l, q1, q2, q3, q4⟩ := e1
  have q1 : p1.entries = l := by simpa using q1
  refine ⟨p1, ?_, by rw [q1]; exact q2, by rw [q1]; exact q3, by rw [q1]; exact q4⟩
  unfold calcPops
  rw [Dict.get_eq_ok_iff.2 g1]
  show calcPopsLoop succ pop fuel cs.reverse Dict.empty = _
  obtain ⟨n, rfl⟩ : ∃ n, fuel = (n + 1) + k := ⟨fuel - 1 - k, by omega⟩
  rw [← List.append_nil cs.reverse, l1]
  rfl

theorem partNodesLoop_spec (hRt : Rooted T root par rank) {succ : Dict V (List V)} (hs : SuccOk T root par succ)
    {start : V} (hst : start ∈ T.nodes) (hsr : start ≠ root) :
    ∀ (n : ℕ) (queue : List V) (nodes : Finset V),
      (queue.map (fun x => (sub T root par x).card)).sum < n →
      (∀ x ∈ queue, x ∈ sub T root par start) → (∀ x ∈ nodes, x ∈ sub T root par start) →
      (start ∈ nodes ∨ start ∈ queue) → (∀ x ∈ nodes, ∀ c ∈ kids T root par x, c ∈ nodes ∨ c ∈ queue) →
      partNodesLoop succ n queue nodes = .ok (sub T root par start) := by
  intro n
  induction n with
  | zero => intro _ _ h; omega
  | succ n ih =>
    intro queue nodes hm hq hn hs0 hk
    have hnr : ∀ x ∈ sub T root par start, x ≠ root := by
      rintro x hx rfl
      have h1 := (mem_sub.1 hx).2
      rcases Relation.ReflTransGen.cases_head h1 with e | ⟨c, ⟨_, h2, _⟩, _⟩
      · exact hsr e.symm
      · exact h2 rfl
    rcases queue with _ | ⟨x, queue⟩
    · show Except.ok nodes = _
      congr 1
      apply Finset.Subset.antisymm hn
      intro w hw
      have hs1 : start ∈ nodes := by simpa using hs0
      have hcl : ∀ x ∈ nodes, kids T root par x ⊆ nodes := fun x hx c hc => by simpa using hk x hx c hc
      have hwd := (mem_sub.1 hw).2
      have : ∀ k w, rank w < k → w ∈ T.nodes → Desc T root par start w → w ∈ nodes := by
        intro k
        induction k with
        | zero => intro w h; omega
        | succ k ihk =>
          intro w h1 h2 h3
          by_cases hws : w = start
          · subst hws; exact hs1
          · obtain ⟨a1, a2, a3⟩ := h3.up hws
            have a4 := hRt.rank_lt w h2 a1
            have := ihk (par w) (by omega) (hRt.par_mem w h2 a1) a3
            exact hcl _ this (Finset.mem_filter.2 ⟨h2, a1, rfl⟩)
      exact this _ w (Nat.lt_succ_self _) (mem_sub.1 hw).1 hwd
    · have hxs := hq x (List.mem_cons_self ..)
      have hxn : x ∈ T.nodes := (mem_sub.1 hxs).1
      have hxr := hnr x hxs
      have hcard := card_sub hRt hxn
      simp only [List.map_cons, List.sum_cons] at hm
      rw [partNodesLoop]
      by_cases hx : x ∈ nodes
      · rw [if_pos hx]
        refine ih queue nodes (by omega) (fun y hy => hq y (List.mem_cons_of_mem _ hy)) hn ?_ ?_
        · rcases hs0 with h' | h'
          · exact Or.inl h'
          · rcases List.mem_cons.1 h' with rfl | h'
            · exact Or.inl hx
            · exact Or.inr h'
        · intro y hy c hc
          rcases hk y hy c hc with h' | h'
          · exact Or.inl h'
          · rcases List.mem_cons.1 h' with rfl | h'
            · exact Or.inl hx
            · exact Or.inr h'
      · rw [if_neg hx]
        simp only
        have hcs : ∃ cs, (succ.get? x).getD [] = cs ∧ cs.Nodup ∧ cs.toFinset = kids T root par x := by
          rcases Finset.eq_empty_or_nonempty (kids T root par x) with he | he
          · exact ⟨[], by rw [hs.leaf x hxn hxr he]; rfl, List.nodup_nil, by rw [he]; rfl⟩
          · obtain ⟨cs, g1, g2, g3⟩ := hs.inner x hxn hxr he
            exact ⟨cs, by rw [g1]; rfl, g2, g3⟩
        obtain ⟨cs, g1, g2, g3⟩ := hcs
        have hmk : ∀ c, c ∈ cs ↔ c ∈ kids T root par x := by intro c; rw [← g3, List.mem_toFinset]
        rw [g1]
        refine ih _ _ ?_ ?_ ?_ ?_ ?_
        · rw [List.map_append, List.sum_append, List.map_reverse, List.sum_reverse]
          have h1 : ((cs.filter (fun c => decide (c ∉ insert x nodes))).map (fun x => (sub T root par x).card)).sum ≤
              (cs.map (fun x => (sub T root par x).card)).sum :=
            List.Sublist.sum_le_sum (List.filter_sublist.map _) (fun _ _ => Nat.zero_le _)
          have h2 : (cs.map (fun x => (sub T root par x).card)).sum = ∑ c ∈ kids T root par x, (sub T root par c).card := by
            rw [← g3, List.sum_toFinset _ g2]
          omega
        · intro y hy
          rcases List.mem_append.1 hy with hy | hy
          · have h1 := (hmk y).1 (List.mem_filter.1 (List.mem_reverse.1 hy)).1
            have h1' := h1
            simp only [kids, Finset.mem_filter] at h1'
            exact mem_sub.2 ⟨h1'.1, Relation.ReflTransGen.head ⟨h1'.1, h1'.2.1, h1'.2.2.symm⟩ (mem_sub.1 hxs).2⟩
          · exact hq y (List.mem_cons_of_mem _ hy)
        · intro y hy
          rcases Finset.mem_insert.1 hy with rfl | hy
          · exact hxs
          · exact hn y hy
        · rcases hs0 with h' | h'
          · exact Or.inl (Finset.mem_insert_of_mem h')
          · rcases List.mem_cons.1 h' with rfl | h'
            · exact Or.inl (Finset.mem_insert_self ..)
            · exact Or.inr (List.mem_append_right _ h')
        · intro y hy c hc
          by_cases hcn : c ∈ insert x nodes
          · exact Or.inl hcn
          · right
            rcases Finset.mem_insert.1 hy with rfl | hy
            · refine List.mem_append_left _ (List.mem_reverse.2 (List.mem_filter.2 ⟨(hmk c).2 hc, ?_⟩))
              simpa using hcn
            · rcases hk y hy c hc with h' | h'
              · exact absurd (Finset.mem_insert_of_mem h') hcn
              · rcases List.mem_cons.1 h' with rfl | h'
                · exact absurd (Finset.mem_insert_self ..) hcn
                · exact List.mem_append_right _ h'

theorem partNodes_spec (hRt : Rooted T root par rank) {succ : Dict V (List V)} (hs : SuccOk T root par succ)
    {start : V} (hst : start ∈ T.nodes) (hsr : start ≠ root) {fuel : ℕ} (hf : T.nodes.card < fuel) :
    partNodes fuel succ start = .ok (sub T root par start) := by
  refine partNodesLoop_spec hRt hs hst hsr fuel [start] ∅ ?_ ?_ ?_ ?_ ?_
  · have := Finset.card_le_card (sub_subset (T := T) (root := root) (par := par) (v := start))
    simp; omega
  · intro x hx
    rw [List.mem_singleton.1 hx]; exact self_mem_sub hst
  · simp
  · simp
  · simp

/-- the nodes for which the memoization algorithm reports a cut -/
def memoBal (T : Graph V) (root : V) (par : V → V) (h : PopGraph V) (oneSided : Bool) (x : V) : Prop :=
  if oneSided then
    |popOf h.population (sub T root par x) - h.idealPop| ≤ h.idealPop * h.epsilon ∨
      |(h.totPop - popOf h.population (sub T root par x)) - h.idealPop| ≤ h.idealPop * h.epsilon
  else
    |popOf h.population (sub T root par x) - h.idealPop| ≤ h.idealPop * h.epsilon ∧
      |(h.totPop - popOf h.population (sub T root par x)) - h.idealPop| ≤ h.idealPop * h.epsilon

/-- the subset it reports -/
noncomputable def memoSide (T : Graph V) (root : V) (par : V → V) (h : PopGraph V) (oneSided : Bool) (x : V) : Finset V :=
  if oneSided = true ∧ |popOf h.population (sub T root par x) - h.idealPop| ≤ h.idealPop * h.epsilon then
    sub T root par x
  else h.graph.nodes \ sub T root par x

theorem memoCut_spec (hRt : Rooted T root par rank) (R : Rand S) (hR : R.Valid) (h : PopGraph V)
    {pred : Dict V V} (hpred : ∀ v ∈ T.nodes, v ≠ root → pred.get? v = some (par v))
    {succ : Dict V (List V)} (hs : SuccOk T root par succ) {fuel : ℕ} (hf : T.nodes.card < fuel) (inside : Bool)
    {x : V} (hx : x ∈ T.nodes) (hr : x ≠ root) (w : S) :
    ∃ wt w', memoCut R fuel h pred succ inside x w =
      (.ok ⟨(x, par x), wt, if inside then sub T root par x else h.graph.nodes \ sub T root par x⟩, w') := by
  obtain ⟨r, w1, hr1, _⟩ := hR.random_ok w
  unfold memoCut
  rw [M.bind_ok (Dict.lift_get (hpred x hx hr) w), M.bind_ok hr1, partNodes_spec hRt hs hx hr hf]
  exact ⟨_, w1, rfl⟩

theorem memoLoop_spec (hRt : Rooted T root par rank) (R : Rand S) (hR : R.Valid) (h : PopGraph V)
    {pred : Dict V V} (hpred : ∀ v ∈ T.nodes, v ≠ root → pred.get? v = some (par v))
    {succ : Dict V (List V)} (hs : SuccOk T root par succ) {fuel : ℕ} (hf : T.nodes.card < fuel) (oneSided : Bool) :
    ∀ (l : List (V × ℚ)) (D : Finset V) (cuts : List (Cut V)) (w : S),
      (l.map (·.1)).Nodup → (∀ e ∈ l, e.1 ∉ D ∧ e.1 ∈ T.nodes ∧ e.1 ≠ root ∧ e.2 = popOf h.population (sub T root par e.1)) →
      CutsFor par D (memoBal T root par h oneSided) (memoSide T root par h oneSided) cuts →
      ∃ cuts' w', memoLoop R fuel h pred succ oneSided l cuts w = (.ok cuts', w') ∧
        CutsFor par (D ∪ (l.map (·.1)).toFinset) (memoBal T root par h oneSided) (memoSide T root par h oneSided) cuts' := by
  intro l
  induction l with
  | nil =>
    intro D cuts w _ _ hc
    exact ⟨cuts, w, rfl, by simpa using hc⟩
  | cons e l ih =>
    intro D cuts w hnd he hc
    obtain ⟨x, q⟩ := e
    obtain ⟨hxD, hxn, hxr, hq⟩ := he (x, q) (List.mem_cons_self ..)
    simp only at hxD hxn hxr hq
    subst hq
    simp only [List.map_cons, List.nodup_cons] at hnd
    have hrest : ∀ e ∈ l, e.1 ∉ insert x D ∧ e.1 ∈ T.nodes ∧ e.1 ≠ root ∧
        e.2 = popOf h.population (sub T root par e.1) := by
      intro e hel
      obtain ⟨a1, a2⟩ := he e (List.mem_cons_of_mem _ hel)
      refine ⟨?_, a2⟩
      rw [Finset.mem_insert, not_or]
      refine ⟨?_, a1⟩
      intro hh
      exact hnd.1 (hh ▸ List.mem_map.2 ⟨e, hel, rfl⟩)
    have hset : D ∪ (((x, popOf h.population (sub T root par x)) :: l).map (·.1)).toFinset =
        insert x D ∪ (l.map (·.1)).toFinset := by
      ext z; simp only [List.map_cons, List.toFinset_cons, Finset.mem_union, Finset.mem_insert]; tauto
    rw [hset]
    -- one reported cut
    have hyes : ∀ inside : Bool, memoBal T root par h oneSided x →
        (if inside then sub T root par x else h.graph.nodes \ sub T root par x) = memoSide T root par h oneSided x →
        ∃ cuts' w', (do
          let c ← memoCut R fuel h pred succ inside x
          memoLoop R fuel h pred succ oneSided l (cuts ++ [c]) : M S (List (Cut V))) w = (.ok cuts', w') ∧
          CutsFor par (insert x D ∪ (l.map (·.1)).toFinset) (memoBal T root par h oneSided)
            (memoSide T root par h oneSided) cuts' := by
      intro inside hb hside
      obtain ⟨wt, w1, hm⟩ := memoCut_spec hRt R hR h hpred hs hf inside hxn hxr w
      rw [M.bind_ok hm, hside]
      exact ih (insert x D) _ w1 hnd.2 hrest (hc.snoc hxD hb)
    have hno : ¬ memoBal T root par h oneSided x → ∃ cuts' w', memoLoop R fuel h pred succ oneSided l cuts w = (.ok cuts', w') ∧
          CutsFor par (insert x D ∪ (l.map (·.1)).toFinset) (memoBal T root par h oneSided)
            (memoSide T root par h oneSided) cuts' :=
      fun hb => ih (insert x D) _ w hnd.2 hrest (hc.skip hb)
    rw [memoLoop]
    rcases oneSided with _ | _
    · simp only [Bool.false_eq_true, if_false]
      split
      · rename_i hcond
        exact hyes false (by simpa [memoBal] using hcond) (by simp [memoSide])
      · rename_i hcond
        exact hno (by simpa [memoBal] using hcond)
    · simp only [if_true]
      split
      · rename_i hcond
        exact hyes true (by simp [memoBal, hcond]) (by simp [memoSide, hcond])
      · rename_i hcond
        split
        · rename_i hcond2
          exact hyes false (by simp [memoBal, hcond2]) (by simp [memoSide, hcond])
        · rename_i hcond2
          exact hno (by simpa [memoBal] using ⟨lt_of_not_ge hcond, lt_of_not_ge hcond2⟩)

end GC

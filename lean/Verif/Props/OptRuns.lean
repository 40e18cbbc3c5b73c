import Verif.Model.OptRuns
import Verif.Props.Optimizer

/-!
# C99: what an optimizer reports while its runs are going on

The documentation of `SingleMetricOptimizer` says that "both during and after an optimization run" `best_part` and `best_score`
represent the best plan observed, and that they are "reset each time an optimization run is invoked".  A program that uses an optimizer
sees only the results of its calls of `next`; `seen` computes from these calls and results alone which plans count.
-/

set_option linter.unusedSectionVars false
set_option autoImplicit false

namespace GC

variable {S R A : Type}

/-! ### Which plans count, from the calls and results alone -/

/-- the state handed out -/
def GenRes.part? : GenRes R → Option R
  | .yields p => some p
  | _ => none

/-- `simulated_annealing` and `tilted_run` -/
def OptCall.isSingle : OptCall S R → Bool
  | .single _ _ => true
  | _ => false

/-- An onlooker's notes: how many runs were asked for and of which kind, which of them have begun (or were closed), the plan each of
them handed out last if the program has not asked it for more since, and the plans counted since the best plan was last reset. -/
structure Notes (R : Type) where
  single : List Bool
  begun : ℕ → Bool
  pending : ℕ → Option R
  seen : List R

/-- nothing has happened -/
def Notes.empty : Notes R := ⟨[], fun _ => false, fun _ => none, []⟩

/-- The rules.  The first `next` of a run resets the count to the initial plan (except that a `simulated_annealing` or `tilted_run`
whose first `next` raises has reset nothing).  Every later `next` of a run counts the plan which that run had handed out before. -/
def Notes.see (initial : R) (n : Notes R) : OptOp S R × Option (GenRes R) → Notes R
  | (.call c, _) => { n with single := n.single ++ [c.isSingle] }
  | (.close i, _) => if i < n.single.length then
      { n with begun := Function.update n.begun i true, pending := Function.update n.pending i none } else n
  | (.other _, _) => n
  | (.next _, none) => n
  | (.next i, some r) =>
    { n with
      begun := Function.update n.begun i true
      pending := Function.update n.pending i r.part?
      seen := if n.begun i then n.seen ++ (n.pending i).toList
        else match r, n.single[i]? with
          | .raises _, some true => n.seen
          | _, _ => [initial] }

/-- the notes after a history -/
def notes (initial : R) (h : List (OptOp S R × Option (GenRes R))) : Notes R := h.foldl (Notes.see initial) Notes.empty

/-- The attributes say which of the plans in `l` is the last of the best; before any plan was counted they are `None`. -/
def Reports [LinearOrder A] (maximize : Bool) (f : R → A) (l : List R) (b : BestAttr R A) : Prop :=
  (l = [] ∧ b.part = none ∧ b.score = none) ∨
    ∃ p, b.part = some p ∧ b.score = some (f p) ∧ LastBest maximize (l.map fun r => (r, f r)) (p, f p)

/-! ### One `next` -/

/-- the plan a waiting generator handed out last -/
def OptGen.part? : OptGen S R → Option R
  | .inBursts _ _ _ _ _ p => some p
  | .inSingle _ _ p => some p
  | .inVar _ _ _ _ _ _ _ _ p => some p
  | _ => none

/-- the call of a generator that has not begun -/
def OptGen.call? : OptGen S R → Option (OptCall S R)
  | .fresh c => some c
  | _ => none

/-- nothing was counted on the way to this result -/
def QuietNext (b : BestAttr R A) (x : Resumed S R A) : Prop :=
  ∀ r g b' s, x = some (r, g, b', s) → b' = b ∧ g.part? = r.part? ∧ g.call? = none

theorem quiet_advance {cfg : ChainCfg S R} {ch : Chain S R} {fuel : ℕ} {b : BestAttr R A} {s : S} {wait : Chain S R → R → OptGen S R}
    {after : S → Resumed S R A} (hw : ∀ ch p, (wait ch p).part? = some p ∧ (wait ch p).call? = none) (ha : ∀ s, QuietNext b (after s)) :
    QuietNext b (advance cfg ch fuel b s wait after) := by
  intro r g b' s' h
  unfold advance at h
  split at h
  · cases h
  · exact ha _ _ _ _ _ h
  · cases h; exact ⟨rfl, rfl, rfl⟩
  · cases h; exact ⟨rfl, (hw _ _).1, (hw _ _).2⟩

theorem quiet_startChain {o : OptCfg S R A} {accept : R → M S Bool} {length : ℤ} {fuel : ℕ} {b : BestAttr R A} {s : S}
    {wait : ChainCfg S R → Chain S R → R → OptGen S R} {after : S → Resumed S R A}
    (hw : ∀ cfg ch p, (wait cfg ch p).part? = some p ∧ (wait cfg ch p).call? = none) (ha : ∀ s, QuietNext b (after s)) :
    QuietNext b (startChain o accept length fuel b s wait after) := by
  intro r g b' s' h
  unfold startChain at h
  split at h
  · cases h; exact ⟨rfl, rfl, rfl⟩
  · split at h
    · cases h; exact ⟨rfl, rfl, rfl⟩
    · exact quiet_advance (hw _) ha _ _ _ _ h

theorem quiet_beginBursts (o : OptCfg S R A) (accept : R → M S Bool) (length : ℤ) (fuel : ℕ) : ∀ (n : ℕ) (b : BestAttr R A) (s : S),
    QuietNext b (beginBursts o accept length fuel n b s)
  | 0, b, s => by intro r g b' s' h; cases h; exact ⟨rfl, rfl, rfl⟩
  | n + 1, b, s => quiet_startChain (fun _ _ _ => ⟨rfl, rfl⟩) fun _ => quiet_beginBursts o accept length fuel n b _

theorem quiet_beginVar (o : OptCfg S R A) (accept : R → M S Bool) (numSteps stuckBuffer : ℤ) (fuel : ℕ) :
    ∀ (n length stuck i : ℕ) (b : BestAttr R A) (s : S), QuietNext b (beginVar o accept numSteps stuckBuffer fuel n length stuck i b s)
  | 0, _, _, _, b, s => by intro r g b' s' h; cases h
  | n + 1, length, stuck, i, b, s => by
    unfold beginVar
    split
    · exact quiet_startChain (fun _ _ _ => ⟨rfl, rfl⟩) fun _ => quiet_beginVar o accept numSteps stuckBuffer fuel n _ _ _ b _
    · intro r g b' s' h; cases h; exact ⟨rfl, rfl, rfl⟩

/-- scoring always succeeds, and the score of a plan is always the same -/
def HasScore (o : OptCfg S R A) (f : R → A) : Prop := ∀ r s, ∃ s', o.score r s = (.ok (f r), s')

section
variable [LinearOrder A] {o : OptCfg S R A} {f : R → A}

theorem resetBest_ok (hf : HasScore o f) (b : BestAttr R A) (s : S) : ∃ s', resetBest o b s = (.ok (), ⟨some o.initial, some (f o.initial)⟩, s') := by
  obtain ⟨s', h⟩ := hf o.initial s
  exact ⟨s', by simp [resetBest, h]⟩

theorem process_ok (hf : HasScore o f) {l : List R} {b : BestAttr R A} (hb : Reports o.maximize f l b) (hl : l ≠ []) (p : R) (s : S) :
    ∃ better b' s', process o b p s = (.ok better, b', s') ∧ Reports o.maximize f (l ++ [p]) b' := by
  obtain ⟨s', h⟩ := hf p s
  rcases hb with ⟨h0, -⟩ | ⟨q, h1, h2, h3⟩
  · exact absurd h0 hl
  · have h4 := h3.update p (f p)
    unfold OptCfg.update at h4
    simp only [process, h, h2]
    split_ifs at h4 ⊢ with hi
    · exact ⟨_, _, _, rfl, .inr ⟨p, rfl, rfl, by simpa using h4⟩⟩
    · exact ⟨_, _, _, rfl, .inr ⟨q, h1, h2, by simpa using h4⟩⟩

theorem reports_initial (m : Bool) (f : R → A) (p : R) : Reports m f [p] ⟨some p, some (f p)⟩ :=
  .inr ⟨p, rfl, rfl, [], [], rfl, by simp, by simp⟩

/-- the plans that count after a `next` of a generator that had begun (`none`) or not (`some single`) -/
def nowCounted (initial : R) (l : List R) (p : Option R) : Option Bool → GenRes R → List R
  | none, _ => l ++ p.toList
  | some true, .raises _ => l
  | some _, _ => [initial]

/-- What one `next` does to the attributes and to the plan that is waiting. -/
theorem resume_spec (hf : HasScore o f) {fuel : ℕ} {g : OptGen S R} {l : List R} {b : BestAttr R A} {s : S} {r : GenRes R} {g' : OptGen S R}
    {b' : BestAttr R A} {s' : S} (h : resume o fuel g b s = some (r, g', b', s')) (hb : Reports o.maximize f l b)
    (hl : g.part? ≠ none → l ≠ []) :
    g'.part? = r.part? ∧ g'.call? = none ∧
      Reports o.maximize f (nowCounted o.initial l g.part? (g.call?.map OptCall.isSingle) r) b' := by
  have hq : ∀ {b1 : BestAttr R A} {x : Resumed S R A} {l' : List R}, x = some (r, g', b', s') → QuietNext b1 x → Reports o.maximize f l' b1 →
      g'.part? = r.part? ∧ g'.call? = none ∧ Reports o.maximize f l' b' := by
    intro b1 x l' hx hQ hR
    obtain ⟨e1, e2, e3⟩ := hQ _ _ _ _ hx
    exact ⟨e2, e3, e1 ▸ hR⟩
  match g with
  | .finished =>
    cases h
    exact ⟨rfl, rfl, by simpa [OptGen.call?, OptGen.part?, nowCounted] using hb⟩
  | .fresh (.bursts accept length num) =>
    obtain ⟨s1, h1⟩ := resetBest_ok hf b s
    simp only [resume, h1] at h
    obtain ⟨e2, e3, e4⟩ := hq h (quiet_beginBursts _ _ _ _ _ _ _) (reports_initial o.maximize f o.initial)
    refine ⟨e2, e3, ?_⟩
    cases r <;> exact e4
  | .fresh (.single accept steps) =>
    simp only [resume] at h
    split at h
    · cases h
      exact ⟨rfl, rfl, hb⟩
    · rename_i ch s1 _
      obtain ⟨s2, h1⟩ := resetBest_ok hf b s1
      simp only [h1, advance, Chain.next, Chain.iter] at h
      cases h
      exact ⟨rfl, rfl, reports_initial o.maximize f o.initial⟩
  | .fresh (.variable accept numSteps stuckBuffer) =>
    obtain ⟨s1, h1⟩ := resetBest_ok hf b s
    simp only [resume, h1] at h
    obtain ⟨e2, e3, e4⟩ := hq h (quiet_beginVar _ _ _ _ _ _ _ _ _ _ _) (reports_initial o.maximize f o.initial)
    refine ⟨e2, e3, ?_⟩
    cases r <;> exact e4
  | .inBursts accept length left cfg ch part =>
    obtain ⟨better, b1, s1, h1, h2⟩ := process_ok hf hb (hl (by simp [OptGen.part?])) part s
    simp only [resume, h1] at h
    exact hq h (quiet_advance (fun _ _ => ⟨rfl, rfl⟩) fun _ => quiet_beginBursts _ _ _ _ _ _ _) h2
  | .inSingle cfg ch part =>
    obtain ⟨better, b1, s1, h1, h2⟩ := process_ok hf hb (hl (by simp [OptGen.part?])) part s
    simp only [resume, h1] at h
    exact hq h (quiet_advance (fun _ _ => ⟨rfl, rfl⟩) fun _ => by intro _ _ _ _ h; cases h; exact ⟨rfl, rfl, rfl⟩) h2
  | .inVar accept numSteps stuckBuffer length stuck i cfg ch part =>
    obtain ⟨better, b1, s1, h1, h2⟩ := process_ok hf hb (hl (by simp [OptGen.part?])) part s
    simp only [resume, h1] at h
    split at h
    · exact hq h (quiet_beginVar _ _ _ _ _ _ _ _ _ _ _) h2
    · exact hq h (quiet_advance (fun _ _ => ⟨rfl, rfl⟩) fun _ => quiet_beginVar _ _ _ _ _ _ _ _ _ _ _) h2

/-! ### Every history -/

/-- the optimizer agrees with the notes -/
structure InStep (o : OptCfg S R A) (f : R → A) (n : Notes R) (w : OptWorld S R A) : Prop where
  best : Reports o.maximize f n.seen w.best
  size : n.single.length = w.gens.length
  pending : ∀ (i : ℕ) (g : OptGen S R), w.gens[i]? = some g → n.pending i = g.part?
  begun : ∀ (i : ℕ) (g : OptGen S R), w.gens[i]? = some g → n.begun i = g.call?.isNone
  kind : ∀ (i : ℕ) (g : OptGen S R) c, w.gens[i]? = some g → g.call? = some c → n.single[i]? = some c.isSingle
  alive : ∀ (i : ℕ) (g : OptGen S R), w.gens[i]? = some g → g.part? ≠ none → n.seen ≠ []
  outside : ∀ i : ℕ, w.gens.length ≤ i → n.pending i = none ∧ n.begun i = false

theorem InStep.run (hf : HasScore o f) {fuel : ℕ} {op : OptOp S R} {n : Notes R} {w w' : OptWorld S R A} {r : Option (GenRes R)}
    (h : InStep o f n w) (hr : op.run o fuel w = some (r, w')) : InStep o f (n.see o.initial (op, r)) w' := by
  cases op with
  | call c =>
    cases hr
    refine ⟨h.best, by simp [Notes.see, h.size], ?_, ?_, ?_, ?_, ?_⟩
    · intro i g hg
      rw [List.getElem?_append] at hg
      split_ifs at hg with hi
      · exact h.pending i g hg
      · have := (h.outside i (by omega)).1
        rcases hk : i - w.gens.length with _ | k <;> rw [hk] at hg <;> simp at hg
        subst hg; exact this
    · intro i g hg
      rw [List.getElem?_append] at hg
      split_ifs at hg with hi
      · exact h.begun i g hg
      · have := (h.outside i (by omega)).2
        rcases hk : i - w.gens.length with _ | k <;> rw [hk] at hg <;> simp at hg
        subst hg; exact this
    · intro i g c' hg hc
      rw [List.getElem?_append] at hg
      simp only [Notes.see]
      rw [List.getElem?_append, h.size]
      split_ifs at hg ⊢ with hi
      · exact h.kind i g c' hg hc
      · rcases hk : i - w.gens.length with _ | k <;> rw [hk] at hg <;> simp at hg
        subst hg
        cases hc
        rfl
    · intro i g hg hp
      rw [List.getElem?_append] at hg
      split_ifs at hg with hi
      · exact h.alive i g hg hp
      · rcases hk : i - w.gens.length with _ | k <;> rw [hk] at hg <;> simp at hg
        subst hg
        exact absurd rfl hp
    · intro i hi
      simp only [List.length_append, List.length_singleton] at hi
      exact h.outside i (by omega)
  | other k => cases hr; exact ⟨h.best, h.size, h.pending, h.begun, h.kind, h.alive, h.outside⟩
  | close i =>
    cases hr
    by_cases hi : i < w.gens.length
    · have hi' : i < n.single.length := h.size ▸ hi
      simp only [Notes.see, if_pos hi']
      refine ⟨h.best, by simpa using h.size, ?_, ?_, ?_, ?_, ?_⟩
      · intro j g hg
        rcases eq_or_ne j i with rfl | hj
        · rw [List.getElem?_set_self hi] at hg
          cases hg; simp [OptGen.part?]
        · rw [List.getElem?_set_ne hj.symm] at hg
          simp only [Function.update_of_ne hj]; exact h.pending j g hg
      · intro j g hg
        rcases eq_or_ne j i with rfl | hj
        · rw [List.getElem?_set_self hi] at hg
          cases hg; simp [OptGen.call?]
        · rw [List.getElem?_set_ne hj.symm] at hg
          simp only [Function.update_of_ne hj]; exact h.begun j g hg
      · intro j g c hg hc
        rcases eq_or_ne j i with rfl | hj
        · rw [List.getElem?_set_self hi] at hg
          cases hg; simp [OptGen.call?] at hc
        · rw [List.getElem?_set_ne hj.symm] at hg
          exact h.kind j g c hg hc
      · intro j g hg hp
        rcases eq_or_ne j i with rfl | hj
        · rw [List.getElem?_set_self hi] at hg
          cases hg; exact absurd rfl hp
        · rw [List.getElem?_set_ne hj.symm] at hg
          exact h.alive j g hg hp
      · intro j hj
        rw [List.length_set] at hj
        have hji : j ≠ i := by omega
        simp only [Function.update_of_ne hji]
        exact h.outside j hj
    · have hi' : ¬ i < n.single.length := h.size ▸ hi
      simp only [Notes.see, if_neg hi']
      rw [List.set_eq_of_length_le (by omega)]
      exact h
  | next i =>
    simp only [OptOp.run] at hr
    rcases hg : w.gens[i]? with _ | g <;> rw [hg] at hr
    · cases hr; exact h
    simp only at hr
    rcases hx : resume o fuel g w.best w.world with _ | ⟨r', g', b', s'⟩ <;> rw [hx] at hr <;> cases hr
    have hi : i < w.gens.length := (List.getElem?_eq_some_iff.1 hg).1
    obtain ⟨e1, e2, e3⟩ := resume_spec hf hx h.best (h.alive i g hg)
    have hseen : (n.see o.initial ((OptOp.next i : OptOp S R), some r')).seen =
        nowCounted o.initial n.seen g.part? (g.call?.map OptCall.isSingle) r' := by
      simp only [Notes.see, h.begun i g hg, h.pending i g hg]
      rcases hc : g.call? with _ | c
      · rfl
      · rw [h.kind i g c hg hc]
        cases hs : c.isSingle <;> cases r' <;> simp [nowCounted, hs]
    rw [← hseen] at e3
    refine ⟨e3, by simpa [Notes.see] using h.size, ?_, ?_, ?_, ?_, ?_⟩
    · intro j k hk
      rcases eq_or_ne j i with rfl | hj
      · rw [List.getElem?_set_self hi] at hk
        cases hk; simp [Notes.see, e1]
      · rw [List.getElem?_set_ne hj.symm] at hk
        simp only [Notes.see]
        rw [Function.update_of_ne hj]; exact h.pending j k hk
    · intro j k hk
      rcases eq_or_ne j i with rfl | hj
      · rw [List.getElem?_set_self hi] at hk
        cases hk; simp [Notes.see, e2]
      · rw [List.getElem?_set_ne hj.symm] at hk
        simp only [Notes.see]
        rw [Function.update_of_ne hj]; exact h.begun j k hk
    · intro j k c hk hc
      rcases eq_or_ne j i with rfl | hj
      · rw [List.getElem?_set_self hi] at hk
        cases hk; rw [e2] at hc; cases hc
      · rw [List.getElem?_set_ne hj.symm] at hk
        exact h.kind j k c hk hc
    · intro j k hk hp
      have hkeep : n.seen ≠ [] → (n.see o.initial ((OptOp.next i : OptOp S R), some r')).seen ≠ [] := by
        intro hne
        rw [hseen]
        rcases g.call? with _ | c
        · simp [nowCounted, hne]
        · cases hs : c.isSingle <;> cases r' <;> simp [nowCounted, hs, hne]
      rcases eq_or_ne j i with rfl | hj
      · rw [List.getElem?_set_self hi] at hk
        cases hk
        rw [e1] at hp
        rw [hseen]
        rcases hc : g.call? with _ | c
        · simp only [Option.map_none, nowCounted]
          by_cases hgp : g.part? = none
          · -- a finished generator hands out nothing
            exfalso
            cases g with
            | finished => simp only [resume] at hx; cases hx; exact hp rfl
            | fresh c => cases hc
            | _ => cases hgp
          · simpa using fun h0 => absurd h0 (h.alive j g hg hgp)
        · cases r' with
          | yields p => cases hs : c.isSingle <;> simp [nowCounted, hs]
          | stops => exact absurd rfl hp
          | raises e => exact absurd rfl hp
      · rw [List.getElem?_set_ne hj.symm] at hk
        exact hkeep (h.alive j k hk hp)
    · intro j hj
      rw [List.length_set] at hj
      have hji : j ≠ i := by omega
      simp only [Notes.see]
      rw [Function.update_of_ne hji, Function.update_of_ne hji]
      exact h.outside j hj

theorem InStep.runs (hf : HasScore o f) {fuel : ℕ} {ops : List (OptOp S R)} : ∀ {n : Notes R} {w w' : OptWorld S R A}
    {h : List (OptOp S R × Option (GenRes R))}, InStep o f n w → runOps o fuel ops w = some (h, w') →
      InStep o f (h.foldl (Notes.see o.initial) n) w' := by
  induction ops with
  | nil => intro n w w' h ha hr; cases hr; exact ha
  | cons op ops ih =>
    intro n w w' h ha hr
    simp only [runOps] at hr
    rcases h1 : op.run o fuel w with _ | ⟨r, w1⟩ <;> rw [h1] at hr
    · cases hr
    simp only at hr
    rcases h2 : runOps o fuel ops w1 with _ | ⟨l, w2⟩ <;> rw [h2] at hr <;> cases hr
    have := ih (ha.run hf h1) h2
    exact this

/-- a new optimizer -/
def newOptimizer (s : S) : OptWorld S R A := ⟨⟨none, none⟩, [], s⟩

theorem agrees_new (o : OptCfg S R A) (f : R → A) (s : S) : InStep o f Notes.empty (newOptimizer s) where
  best := .inl ⟨rfl, rfl, rfl⟩
  size := rfl
  pending i g h := by simp [newOptimizer] at h
  begun i g h := by simp [newOptimizer] at h
  kind i g c h := by simp [newOptimizer] at h
  alive i g h := by simp [newOptimizer] at h
  outside i _ := ⟨rfl, rfl⟩

/-- **C99** For every program that uses one optimizer: at every moment `best_part` is the last of the best plans counted by the rules
(`Notes.see`), which use only the calls and their results, and `best_score` is its score. -/
theorem C99_reports (hf : HasScore o f) {fuel : ℕ} {ops : List (OptOp S R)} {s : S} {h : List (OptOp S R × Option (GenRes R))}
    {w : OptWorld S R A} (hr : runOps o fuel ops (newOptimizer s) = some (h, w)) :
    Reports o.maximize f (notes o.initial h).seen w.best :=
  (InStep.runs hf (agrees_new o f s) hr).best

/-! ### One run after the other -/

/-- the operations of a history are the operations of the program -/
theorem runOps_ops {fuel : ℕ} {ops : List (OptOp S R)} : ∀ {w w' : OptWorld S R A} {h : List (OptOp S R × Option (GenRes R))},
    runOps o fuel ops w = some (h, w') → h.map Prod.fst = ops := by
  induction ops with
  | nil => intro w w' h hr; cases hr; rfl
  | cons op ops ih =>
    intro w w' h hr
    simp only [runOps] at hr
    rcases h1 : op.run o fuel w with _ | ⟨r, w1⟩ <;> rw [h1] at hr
    · cases hr
    simp only at hr
    rcases h2 : runOps o fuel ops w1 with _ | ⟨l, w2⟩ <;> rw [h2] at hr <;> cases hr
    rw [List.map_cons, ih h2]

/-- the number of runs a program has asked for -/
def numCalls (ops : List (OptOp S R)) : ℕ := (ops.filter fun op => match op with | .call _ => true | _ => false).length

theorem single_length {initial : R} : ∀ (h : List (OptOp S R × Option (GenRes R))) (n : Notes R),
    (h.foldl (Notes.see initial) n).single.length = n.single.length + numCalls (h.map Prod.fst) := by
  intro h
  induction h with
  | nil => intro n; simp [numCalls]
  | cons x h ih =>
    intro n
    rw [List.foldl_cons, ih]
    obtain ⟨op, r⟩ := x
    cases op with
    | call c => simp [Notes.see, numCalls]; omega
    | other k => simp [Notes.see, numCalls]
    | close i => simp only [Notes.see]; split_ifs <;> simp [numCalls]
    | next i => cases r <;> simp [Notes.see, numCalls]

/-- while only run `i` is advanced, every result but the last counts -/
theorem seen_begun {initial : R} {i : ℕ} : ∀ (h : List (OptOp S R × Option (GenRes R))) (n : Notes R), n.begun i = true →
    (∀ x ∈ h, ∀ j, x.1 = .next j → j = i) → (∀ x ∈ h, x.1 ≠ .close i) →
    (∀ x ∈ h, (∀ j, x.1 ≠ .next j) → x.2 = none) →
    (h.foldl (Notes.see initial) n).seen = n.seen ++ match h.filterMap Prod.snd with
      | [] => []
      | r :: rs => (n.pending i).toList ++ (r :: rs).dropLast.filterMap GenRes.part? := by
  intro h
  induction h with
  | nil => intro n _ _ _ _; simp
  | cons x h ih =>
    intro n hb h1 h2 h3
    obtain ⟨op, r⟩ := x
    have ih' := fun n' hn => ih n' hn (fun y hy => h1 y (List.mem_cons_of_mem _ hy)) (fun y hy => h2 y (List.mem_cons_of_mem _ hy))
      (fun y hy => h3 y (List.mem_cons_of_mem _ hy))
    rw [List.foldl_cons]
    have hskip : r = none → (n.see initial (op, r)).begun i = true → (n.see initial (op, r)).seen = n.seen →
        (n.see initial (op, r)).pending i = n.pending i →
        (h.foldl (Notes.see initial) (n.see initial (op, r))).seen = n.seen ++ match ((op, r) :: h).filterMap Prod.snd with
      | [] => []
      | r :: rs => (n.pending i).toList ++ (r :: rs).dropLast.filterMap GenRes.part? := by
      intro hr h4 h5 h6
      rw [ih' _ h4, h5, h6]
      subst hr
      rw [List.filterMap_cons_none rfl]
    cases op with
    | call c =>
      exact hskip (h3 _ List.mem_cons_self (fun j hj => by cases hj)) hb rfl rfl
    | other k => exact hskip (h3 _ List.mem_cons_self (fun j hj => by cases hj)) hb rfl rfl
    | close j =>
      have hj : i ≠ j := fun hij => h2 _ List.mem_cons_self (by rw [hij])
      refine hskip (h3 _ List.mem_cons_self (fun j hj => by cases hj)) ?_ ?_ ?_ <;> simp only [Notes.see] <;> split_ifs <;>
        simp [Function.update_of_ne hj, hb]
    | next j =>
      have hj : j = i := h1 _ List.mem_cons_self j rfl
      subst hj
      cases r with
      | none => exact hskip rfl hb rfl rfl
      | some r =>
        rw [ih' _ (by simp [Notes.see]), List.filterMap_cons_some (f := Prod.snd) (b := r) rfl]
        simp only [Notes.see, hb, if_true, Function.update_self, List.append_assoc]
        rcases hfm : h.filterMap Prod.snd with _ | ⟨r', rs⟩
        · simp
        · rw [List.dropLast_cons₂]
          rcases hp : r.part? with _ | p
          · rw [List.filterMap_cons_none hp]; simp
          · rw [List.filterMap_cons_some hp]; simp

theorem runOps_append {fuel : ℕ} {ops ops' : List (OptOp S R)} : ∀ {w w' : OptWorld S R A} {h : List (OptOp S R × Option (GenRes R))},
    runOps o fuel (ops ++ ops') w = some (h, w') → ∃ h1 h2 w1, runOps o fuel ops w = some (h1, w1) ∧ runOps o fuel ops' w1 = some (h2, w') ∧
      h = h1 ++ h2 := by
  induction ops with
  | nil => intro w w' h hr; exact ⟨[], h, w, rfl, hr, rfl⟩
  | cons op ops ih =>
    intro w w' h hr
    simp only [List.cons_append, runOps] at hr ⊢
    rcases h1 : op.run o fuel w with _ | ⟨r, w1⟩ <;> rw [h1] at hr
    · cases hr
    simp only at hr ⊢
    rcases h2 : runOps o fuel (ops ++ ops') w1 with _ | ⟨l, w2⟩ <;> rw [h2] at hr <;> cases hr
    obtain ⟨l1, l2, w3, e1, e2, rfl⟩ := ih h2
    exact ⟨(op, r) :: l1, l2, w3, by rw [e1], e2, rfl⟩

theorem results_only_next {fuel : ℕ} {ops : List (OptOp S R)} : ∀ {w w' : OptWorld S R A} {h : List (OptOp S R × Option (GenRes R))},
    runOps o fuel ops w = some (h, w') → ∀ x ∈ h, (∀ j, x.1 ≠ .next j) → x.2 = none := by
  induction ops with
  | nil => intro w w' h hr; cases hr; simp
  | cons op ops ih =>
    intro w w' h hr
    simp only [runOps] at hr
    rcases h1 : op.run o fuel w with _ | ⟨r, w1⟩ <;> rw [h1] at hr
    · cases hr
    simp only at hr
    rcases h2 : runOps o fuel ops w1 with _ | ⟨l, w2⟩ <;> rw [h2] at hr <;> cases hr
    intro x hx hn
    rcases List.mem_cons.1 hx with rfl | hx
    · cases op with
      | next j => exact absurd rfl (hn j)
      | _ => cases h1; rfl
    · exact ih h2 x hx hn

/-- when a run begins and then only it is advanced, the initial plan and every plan it handed out but the last count -/
theorem seen_fresh {initial : R} {i : ℕ} : ∀ (h : List (OptOp S R × Option (GenRes R))) (n : Notes R) (r : GenRes R) (rs : List (GenRes R)),
    n.begun i = false → i < n.single.length →
    (∀ x ∈ h, ∀ j, x.1 = .next j → j = i) → (∀ x ∈ h, x.1 ≠ .close i) →
    (∀ x ∈ h, (∀ j, x.1 ≠ .next j) → x.2 = none) → h.filterMap Prod.snd = r :: rs → (∀ e, r ≠ .raises e) →
    (h.foldl (Notes.see initial) n).seen = initial :: (r :: rs).dropLast.filterMap GenRes.part? := by
  intro h
  induction h with
  | nil => intro n r rs _ _ _ _ _ hh; simp at hh
  | cons x h ih =>
    intro n r rs hb hi h1 h2 h3 hh hr
    obtain ⟨op, r'⟩ := x
    have h1' : ∀ x ∈ h, ∀ j, x.1 = .next j → j = i := fun y hy => h1 y (List.mem_cons_of_mem _ hy)
    have h2' : ∀ x ∈ h, x.1 ≠ .close i := fun y hy => h2 y (List.mem_cons_of_mem _ hy)
    have h3' : ∀ x ∈ h, (∀ j, x.1 ≠ .next j) → x.2 = none := fun y hy => h3 y (List.mem_cons_of_mem _ hy)
    rw [List.foldl_cons]
    have hskip : r' = none → (n.see initial (op, r')).begun i = false → i < (n.see initial (op, r')).single.length →
        (h.foldl (Notes.see initial) (n.see initial (op, r'))).seen = initial :: (r :: rs).dropLast.filterMap GenRes.part? := by
      intro hr' h4 h5
      subst hr'
      rw [List.filterMap_cons_none rfl] at hh
      exact ih _ r rs h4 h5 h1' h2' h3' hh hr
    cases op with
    | call c =>
      exact hskip (h3 _ List.mem_cons_self (fun j hj => by cases hj)) hb (by simp [Notes.see]; omega)
    | other k => exact hskip (h3 _ List.mem_cons_self (fun j hj => by cases hj)) hb hi
    | close j =>
      have hj : i ≠ j := fun hij => h2 _ List.mem_cons_self (by rw [hij])
      refine hskip (h3 _ List.mem_cons_self (fun j hj => by cases hj)) ?_ ?_ <;> simp only [Notes.see] <;> split_ifs <;>
        simp [Function.update_of_ne hj, hb, hi]
    | next j =>
      have hj : j = i := h1 _ List.mem_cons_self j rfl
      subst hj
      cases r' with
      | none => exact hskip rfl hb hi
      | some r0 =>
        rw [List.filterMap_cons_some (f := Prod.snd) (b := r0) rfl, List.cons.injEq] at hh
        obtain ⟨rfl, rfl⟩ := hh
        rw [seen_begun h _ (by simp [Notes.see]) h1' h2' h3']
        have hs : (n.see initial ((OptOp.next j : OptOp S R), some r0)).seen = [initial] := by
          cases r0 with
          | raises e => exact absurd rfl (hr e)
          | _ => simp [Notes.see, hb]
        rw [hs]
        rcases hfm : h.filterMap Prod.snd with _ | ⟨r', rs⟩
        · simp
        · rw [List.dropLast_cons₂]
          simp only [Notes.see, Function.update_self, List.singleton_append, List.cons.injEq, true_and]
          rcases hp : r0.part? with _ | p
          · rw [List.filterMap_cons_none hp]; simp
          · rw [List.filterMap_cons_some hp]; simp

theorem notes_begun_outside (hf : HasScore o f) {fuel : ℕ} {ops : List (OptOp S R)} {s : S} {h : List (OptOp S R × Option (GenRes R))}
    {w : OptWorld S R A} (hr : runOps o fuel ops (newOptimizer s) = some (h, w)) :
    (notes o.initial h).begun (numCalls ops) = false ∧ (notes o.initial h).single.length = numCalls ops := by
  have h1 := InStep.runs hf (agrees_new o f s) hr
  have h2 : (notes o.initial h).single.length = numCalls ops := by
    have := single_length (initial := o.initial) h Notes.empty
    rw [runOps_ops hr] at this
    simpa [notes, Notes.empty] using this
  refine ⟨(h1.outside _ ?_).2, h2⟩
  rw [← h1.size]
  exact h2.le

/-- **C99** A run that is asked for after whatever happened before, when from then on no other run of the optimizer is advanced and it
is not closed: as soon as its first `next` has not raised, `best_part` is the last of the best among the initial plan and the plans the
run has handed out, except the one handed out by the last call. -/
theorem C99_one_run_partial (hf : HasScore o f) {fuel : ℕ} {pre rest : List (OptOp S R)} {c : OptCall S R} {s : S}
    {h : List (OptOp S R × Option (GenRes R))} {w : OptWorld S R A}
    (hr : runOps o fuel (pre ++ .call c :: rest) (newOptimizer s) = some (h, w))
    (honly : ∀ j, OptOp.next j ∈ rest → j = numCalls pre) (hopen : OptOp.close (numCalls pre) ∉ rest)
    (r : GenRes R) (rs : List (GenRes R)) (hrs : (h.drop (pre.length + 1)).filterMap Prod.snd = r :: rs) (hfirst : ∀ e, r ≠ .raises e) :
    Reports o.maximize f (o.initial :: (r :: rs).dropLast.filterMap GenRes.part?) w.best := by
  have hfull := C99_reports hf hr
  obtain ⟨h1, h2, w1, e1, e2, rfl⟩ := runOps_append hr
  obtain ⟨hb, hl⟩ := notes_begun_outside hf e1
  rcases h2 with _ | ⟨x, h2⟩
  · have := runOps_ops e2; simp at this
  have hx := runOps_ops e2
  rw [List.map_cons, List.cons.injEq] at hx
  have hlen : h1.length = pre.length := by rw [← runOps_ops e1, List.length_map]
  have hdrop : (h1 ++ x :: h2).drop (pre.length + 1) = h2 := by
    rw [← hlen, List.drop_append]; simp
  rw [hdrop] at hrs
  have hfold : (notes o.initial (h1 ++ x :: h2)).seen = (h2.foldl (Notes.see o.initial) ((notes o.initial h1).see o.initial x)).seen := by
    simp [notes, List.foldl_append]
  rw [hfold, seen_fresh (i := numCalls pre) h2 _ r rs ?_ ?_ ?_ ?_ ?_ hrs hfirst] at hfull
  · exact hfull
  · obtain ⟨op, r'⟩ := x
    cases hx.1
    exact hb
  · obtain ⟨op, r'⟩ := x
    cases hx.1
    simp [Notes.see, hl]
  · intro y hy j hj
    refine honly j ?_
    rw [← hj, ← hx.2]
    exact List.mem_map_of_mem hy
  · intro y hy hj
    refine hopen ?_
    rw [← hj, ← hx.2]
    exact List.mem_map_of_mem hy
  · exact fun y hy => results_only_next e2 y (List.mem_cons_of_mem _ hy)

/-- **C99** When the run has ended, all its plans count. -/
theorem C99_finished_run (hf : HasScore o f) {fuel : ℕ} {pre rest : List (OptOp S R)} {c : OptCall S R} {s : S}
    {h : List (OptOp S R × Option (GenRes R))} {w : OptWorld S R A}
    (hr : runOps o fuel (pre ++ .call c :: rest) (newOptimizer s) = some (h, w))
    (honly : ∀ j, OptOp.next j ∈ rest → j = numCalls pre) (hopen : OptOp.close (numCalls pre) ∉ rest)
    (rs : List (GenRes R)) (hrs : (h.drop (pre.length + 1)).filterMap Prod.snd = rs ++ [.stops])
    (hfirst : ∀ e, rs.head? ≠ some (.raises e)) :
    Reports o.maximize f (o.initial :: rs.filterMap GenRes.part?) w.best := by
  rcases rs with _ | ⟨r, rs⟩
  · have := C99_one_run_partial hf hr honly hopen .stops [] hrs (by simp)
    simpa using this
  · have := C99_one_run_partial hf hr honly hopen r (rs ++ [GenRes.stops]) (by rw [hrs]; rfl) (fun e he => hfirst e (by simp [he]))
    rw [← List.cons_append, List.dropLast_concat] at this
    exact this

/-- **C99** The violation in general: whenever a run hands out a plan that beats all earlier ones, the optimizer reports a worse score
while the program holds that plan, and keeps it when the program stops there. -/
theorem C99_lags (hf : HasScore o f) {fuel : ℕ} {pre rest : List (OptOp S R)} {c : OptCall S R} {s : S}
    {h : List (OptOp S R × Option (GenRes R))} {w : OptWorld S R A}
    (hr : runOps o fuel (pre ++ .call c :: rest) (newOptimizer s) = some (h, w))
    (honly : ∀ j, OptOp.next j ∈ rest → j = numCalls pre) (hopen : OptOp.close (numCalls pre) ∉ rest)
    (rs : List (GenRes R)) (p : R) (hrs : (h.drop (pre.length + 1)).filterMap Prod.snd = rs ++ [.yields p])
    (hfirst : ∀ e, rs.head? ≠ some (.raises e))
    (hbeats : ∀ q ∈ o.initial :: rs.filterMap GenRes.part?, Worse o.maximize (f q) (f p)) :
    ∃ a, w.best.score = some a ∧ Worse o.maximize a (f p) := by
  have h1 : Reports o.maximize f (o.initial :: rs.filterMap GenRes.part?) w.best := by
    rcases rs with _ | ⟨r, rs⟩
    · have := C99_one_run_partial hf hr honly hopen (.yields p) [] hrs (by simp)
      simpa using this
    · have := C99_one_run_partial hf hr honly hopen r (rs ++ [GenRes.yields p]) (by rw [hrs]; rfl) (fun e he => hfirst e (by simp [he]))
      rw [← List.cons_append, List.dropLast_concat] at this
      exact this
  rcases h1 with ⟨h1, -⟩ | ⟨q, -, h2, h3⟩
  · simp at h1
  · refine ⟨f q, h2, hbeats q ?_⟩
    have := h3.spec.1
    rw [List.mem_map] at this
    obtain ⟨q', hq', hqq⟩ := this
    cases hqq
    exact hq'

end

/-! ### Examples and violations -/

/-- accept everything -/
def takeAll (_ : ℤ) : M (List ℤ) Bool := fun s => (.ok true, s)

theorem exOpt_hasScore : HasScore exOpt fun r => |r - 10| := fun _ s => ⟨s, rfl⟩

/-- what a program sees: the plans handed out, and the attributes at the end -/
def shown (x : Option (List (OptOp (List ℤ) ℤ × Option (GenRes ℤ)) × OptWorld (List ℤ) ℤ ℤ)) : Option (List (Option ℤ) × Option ℤ × Option ℤ) :=
  x.map fun y => (y.1.map (fun z => z.2.bind GenRes.part?), y.2.best.part, y.2.best.score)

/-- a run of two bursts of two states each, to its end; the hypotheses of `C99_one_run_partial` and `C99_finished_run` are met -/
example : shown (runOps exOpt 20 ([] ++ .call (.bursts takeAll 2 2) :: [.next 0, .next 0, .next 0, .next 0, .next 0]) (newOptimizer [3, 7])) =
    some ([none, some 1, some 4, some 4, some 11, none], some 11, some 1) := by
  decide +kernel

/-- two runs one after the other; the second forgets the first -/
example : shown (runOps exOpt 20 [.call (.single takeAll 3), .next 0, .next 0, .next 0, .next 0, .call (.single takeAll 2), .next 1, .next 1]
      (newOptimizer [6, 3, 1])) =
    some ([none, some 1, some 7, some 10, none, none, some 1, some 2], some 1, some 9) := by
  decide +kernel

/-- **C99 (violation)** "Both during and after an optimization run" the attributes should represent the best plan observed.  Here the
run has handed out the plans 1, 4, 7 with scores 9, 6, 3, to be minimized; the program holds plan 7 (and may stop here), but the
optimizer says that 4 is the best plan, with score 6. -/
theorem C99_current_plan_violation : shown (runOps exOpt 20 [.call (.bursts takeAll 5 1), .next 0, .next 0, .next 0] (newOptimizer [3, 3])) =
    some ([none, some 1, some 4, some 7], some 4, some 6) := by
  decide +kernel

/-- that run meets the hypotheses of `C99_lags` -/
example : ∃ h w, runOps exOpt 20 ([] ++ .call (.bursts takeAll 5 1) :: [.next 0, .next 0, .next 0]) (newOptimizer [3, 3]) = some (h, w) ∧
    (h.drop 1).filterMap Prod.snd = [.yields 1, .yields 4] ++ [.yields 7] ∧
    (∀ q ∈ exOpt.initial :: [GenRes.yields (1 : ℤ), .yields 4].filterMap GenRes.part?, Worse exOpt.maximize |q - 10| |7 - 10|) := by
  refine ⟨_, _, rfl, rfl, ?_⟩
  intro q hq
  rw [show exOpt.initial :: [GenRes.yields (1 : ℤ), .yields 4].filterMap GenRes.part? = [1, 1, 4] from rfl] at hq
  simp only [List.mem_cons, List.not_mem_nil, or_false] at hq
  rcases hq with rfl | rfl | rfl <;> (show (_ : ℤ) < _; decide)

/-- **C99 (violation)** Two runs in turn.  The first hands out 1 and 7.  Then the second begins, which resets the best plan, and hands
out 1 and 2 (score 8).  When the first goes on, its plan 7 becomes the best plan "of the most recent run", though the second run, which
began last, never handed it out. -/
theorem C99_two_runs_violation : shown (runOps exOpt 20 [.call (.single takeAll 9), .next 0, .next 0, .call (.single takeAll 9), .next 1, .next 1, .next 0,
      .next 1] (newOptimizer [6, 1, 1, 2])) =
    some ([none, some 1, some 7, none, some 1, some 2, some 8, some 4], some 7, some 3) := by
  decide +kernel

/-- **C99 (violation)** "Each burst starts at the best performing plan of the previous burst."  Here the first run, bursts of two states, has
handed out 1 and 2.  A second run hands out 1, 8 and 14.  The next burst of the first run starts at 8, a plan of the other run. -/
theorem C99_foreign_start_violation : shown (runOps exOpt 20 [.call (.bursts takeAll 2 2), .next 0, .next 0, .call (.single takeAll 9), .next 1, .next 1,
      .next 1, .next 0] (newOptimizer [1, 7, 6])) =
    some ([none, some 1, some 2, none, some 1, some 8, some 14, some 8], some 8, some 2) := by
  decide +kernel

/-- `exOpt` with a score that cannot be computed when the world is empty -/
def brittleOpt : OptCfg (List ℤ) ℤ ℤ := { exOpt with score := fun r s => if s = [] then (.error .keyError, s) else (.ok |r - 10|, s) }

/-- **C99 (violation)** `best_score` need not be the score of `best_part`: a run that cannot compute the score of the initial plan has
already made it the best plan, and leaves the best score of the run before. -/
theorem C99_failed_start_violation : shown (runOps brittleOpt 20 [.call (.single takeAll 9), .next 0, .next 0, .next 0, .other (fun _ => []),
      .call (.bursts takeAll 2 2), .next 1] (newOptimizer [6, 1, 1])) =
    some ([none, some 1, some 7, some 8, none, none, none], some 1, some 3) := by
  decide +kernel

end GC

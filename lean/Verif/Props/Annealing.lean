import Verif.Model.Annealing
import Verif.Model.Schedules
import Verif.Props.Optimizer
import Verif.Lemmas.Coupling

/-!
# C94 – the time that simulated annealing gives to its temperature schedule
-/

set_option linter.unusedSectionVars false
set_option autoImplicit false

namespace GC

variable {X : Type}

/-- Partition `r` shows the time `k`: it is cached, or the partition has no parent and the time is 0. -/
def Shows (s : Clocks X) (r : ℕ) (k : ℤ) : Prop := s.clock r = some k ∨ (s.clock r = none ∧ s.parent r = none ∧ k = 0)

/-- `q` is a child of `st`, which shows `k`; the time of `q` is not cached yet or cached correctly. -/
def ChildOf (s : Clocks X) (q st : ℕ) (k : ℤ) : Prop :=
  s.parent q = some st ∧ (s.clock q = none ∨ s.clock q = some (k + 1))

/-- What looking up `step` keeps. -/
structure Keeps (s s' : Clocks X) : Prop where
  parent : s'.parent = s.parent
  count : s'.count = s.count
  readings : s'.readings = s.readings
  shows : ∀ r k, Shows s r k → Shows s' r k
  child : ∀ q st k, Shows s st k → ChildOf s q st k → ChildOf s' q st k

theorem Keeps.refl (s : Clocks X) : Keeps s s := ⟨rfl, rfl, rfl, fun _ _ h => h, fun _ _ _ _ h => h⟩

theorem Keeps.trans {s s' s'' : Clocks X} (h : Keeps s s') (h' : Keeps s' s'') : Keeps s s'' :=
  ⟨h'.parent.trans h.parent, h'.count.trans h.count, h'.readings.trans h.readings, fun r k g => h'.shows r k (h.shows r k g),
    fun q st k g g' => h'.child q st k (h.shows st k g) (h.child q st k g g')⟩

theorem Keeps.same {s s' s'' : Clocks X} (h : Keeps s s') (h' : SameClocks s'' s') : Keeps s s'' := by
  obtain ⟨h1, h2, h3, h4⟩ := h'
  exact ⟨h1.trans h.parent, h3.trans h.count, h4.trans h.readings,
    fun r k g => by have := h.shows r k g; unfold Shows at *; rw [h1, h2]; exact this,
    fun q st k g g' => by have := h.child q st k g g'; unfold ChildOf at *; rw [h1, h2]; exact this⟩

/-- What one lookup does: nothing else changes, and the value is right for partitions whose time is known. -/
theorem stepOf_spec (limit r : ℕ) (s : Clocks X) : Keeps s (stepOf limit r s).2 ∧
    (∀ k v, Shows s r k → (stepOf limit r s).1 = .ok v → v = k ∧ (stepOf limit r s).2.clock r = some k) ∧
    (∀ st k v, Shows s st k → ChildOf s r st k → (stepOf limit r s).1 = .ok v →
      v = k + 1 ∧ (stepOf limit r s).2.clock r = some (k + 1)) := by
  induction limit generalizing r s with
  | zero => exact ⟨Keeps.refl s, (fun k v _ h => by cases h), (fun st k v _ _ h => by cases h)⟩
  | succ n ih =>
    rcases hc : s.clock r with _ | c
    · rcases hp : s.parent r with _ | q
      · have he : stepOf (n + 1) r s = (.ok 0, s.store r 0) := by
          show (match s.clock r with | some k => _ | none => _) = _
          rw [hc]; simp only; rw [hp]
        rw [he]
        refine ⟨⟨rfl, rfl, rfl, ?_, ?_⟩, ?_, ?_⟩
        · intro r' k h
          by_cases e : r' = r
          · subst e
            rcases h with h | h
            · rw [hc] at h; cases h
            · left; rw [h.2.2]; simp [Clocks.store]
          · unfold Shows at *
            simpa [Clocks.store, Function.update_of_ne e] using h
        · intro q st k _ h
          by_cases e : q = r
          · subst e; have := h.1; rw [hp] at this; cases this
          · unfold ChildOf at *
            simpa [Clocks.store, Function.update_of_ne e] using h
        · intro k v h hv
          cases hv
          rcases h with h | h
          · rw [hc] at h; cases h
          · rw [h.2.2]; exact ⟨rfl, by simp [Clocks.store]⟩
        · intro st k v _ h
          have := h.1; rw [hp] at this; cases this
      · obtain ⟨i1, i2, i3⟩ := ih q s
        rcases hq : stepOf n q s with ⟨e | k0, s1⟩
        · have he : stepOf (n + 1) r s = (.error e, s1) := by
            show (match s.clock r with | some k => _ | none => _) = _
            rw [hc]; simp only; rw [hp]; simp only; rw [hq]
          rw [he]
          rw [hq] at i1
          exact ⟨i1, (fun k v _ h => by cases h), (fun st k v _ _ h => by cases h)⟩
        · have he : stepOf (n + 1) r s = (.ok (k0 + 1), s1.store r (k0 + 1)) := by
            show (match s.clock r with | some k => _ | none => _) = _
            rw [hc]; simp only; rw [hp]; simp only; rw [hq]
          rw [he]
          rw [hq] at i1 i2
          refine ⟨⟨i1.parent, i1.count, i1.readings, ?_, ?_⟩, ?_, ?_⟩
          · intro r' k h
            by_cases e : r' = r
            · subst e
              rcases h with h | h
              · rw [hc] at h; cases h
              · rw [hp] at h; cases h.2.1
            · have := i1.shows r' k h
              unfold Shows at *
              simpa [Clocks.store, Function.update_of_ne e] using this
          · intro q' st k h h'
            have g := i1.child q' st k h h'
            by_cases e : q' = r
            · subst e
              have hst : st = q := by have := h'.1; rw [hp] at this; exact (Option.some.inj this).symm
              subst hst
              obtain ⟨rfl, -⟩ := i2 k k0 h rfl
              exact ⟨g.1, .inr (by simp [Clocks.store])⟩
            · unfold ChildOf at *
              simpa [Clocks.store, Function.update_of_ne e] using g
          · intro k v h
            rcases h with h | h
            · rw [hc] at h; cases h
            · rw [hp] at h; cases h.2.1
          · intro st k v h h' hv
            cases hv
            have hst : st = q := by have := h'.1; rw [hp] at this; exact (Option.some.inj this).symm
            subst hst
            obtain ⟨rfl, -⟩ := i2 k k0 h rfl
            exact ⟨rfl, by simp [Clocks.store]⟩
    · have he : stepOf (n + 1) r s = (.ok c, s) := by
        show (match s.clock r with | some k => _ | none => _) = _
        rw [hc]
      rw [he]
      refine ⟨Keeps.refl s, ?_, ?_⟩
      · intro k v h hv
        cases hv
        rcases h with h | h
        · rw [hc] at h; cases h; exact ⟨rfl, hc⟩
        · rw [hc] at h; cases h.1
      · intro st k v _ h hv
        cases hv
        rcases h.2 with h | h
        · rw [hc] at h; cases h
        · rw [hc] at h; cases h; exact ⟨rfl, hc⟩

theorem lookSteps_keeps (l : List (ℕ × ℕ)) (s : Clocks X) : Keeps s (lookSteps s l) := by
  induction l generalizing s with
  | nil => exact Keeps.refl s
  | cons p l ih => exact (stepOf_spec p.1 p.2 s).1.trans (ih _)

theorem LooksOnly.keeps {α : Type} {m : M (Clocks X) α} (h : LooksOnly m) (s : Clocks X) : Keeps s (m s).2 := by
  obtain ⟨l, hl⟩ := h s
  exact (lookSteps_keeps l s).same hl

/-- The callables of the run do not touch the clock except by reading it. -/
structure QuietOpt (o : OptCfg (Clocks X) ℕ ℝ) (random : M (Clocks X) ℝ) : Prop where
  erase : o.erase = Clocks.erase
  proposal : NewPlans o.proposal
  constraint : ∀ con ∈ o.constraints, ∀ r, LooksOnly (con.call r)
  score : ∀ r, LooksOnly (o.score r)
  consumer : ∀ r, LooksOnly (o.consumer r)
  random : LooksOnly random

theorem validator_keeps {cs : List (Constraint (Clocks X) ℕ)} (h : ∀ con ∈ cs, ∀ r, LooksOnly (con.call r)) (q : ℕ) (s : Clocks X) :
    Keeps s (validator q cs s).2 := by
  induction cs generalizing s with
  | nil => exact Keeps.refl s
  | cons a cs ih =>
    have ha := (h a List.mem_cons_self q).keeps s
    have ih' := ih (fun con hc => h con (List.mem_cons_of_mem _ hc))
    unfold validator
    rcases hc : a.call q s with ⟨e | ((_ | _) | (_ | _) | b), s1⟩ <;> rw [hc] at ha <;> simp only at ha ⊢ <;>
      first | exact ha | exact ha.trans (ih' s1)

/-- One decision: the schedule is asked once, for the time after that of the parent. -/
theorem annealRule_spec {o : OptCfg (Clocks X) ℕ ℝ} {random : M (Clocks X) ℝ} (h : QuietOpt o random) {limit : ℕ} {beta : ℤ → Py ℝ}
    {mag : ℝ} {q st : ℕ} {k : ℤ} {s s' : Clocks X} {b : Bool} (h1 : Shows s st k) (h2 : ChildOf s q st k)
    (hr : annealRule o random limit beta mag q s = (.ok b, s')) :
    s'.readings = s.readings ++ [k + 1] ∧ s'.count = s.count ∧ s'.parent = s.parent ∧ Shows s' st k ∧ s'.clock q = some (k + 1) := by
  unfold annealRule annealAccept at hr
  have hp : (parentOf q : M (Clocks X) _) s = (.ok (some st), s) := by unfold parentOf; rw [h2.1]
  rw [M.bind_ok hp] at hr
  simp only at hr
  obtain ⟨a, s1, e1, r1⟩ := M.bind_eq_ok hr
  have k1 := (h.score q).keeps s
  rw [e1] at k1
  obtain ⟨a', s2, e2, r2⟩ := M.bind_eq_ok r1
  have k2 := (h.score st).keeps s1
  rw [e2] at k2
  have k12 := k1.trans k2
  obtain ⟨t, s3, e3, r3⟩ := M.bind_eq_ok r2
  obtain ⟨g1, -, g3⟩ := stepOf_spec limit q s2
  unfold readClock at e3
  rcases hs : stepOf limit q s2 with ⟨e | v, s2'⟩ <;> rw [hs] at e3 g1 g3 <;> simp only at e3
  · cases e3
  simp only [Prod.mk.injEq, Except.ok.injEq] at e3
  obtain ⟨rfl, rfl⟩ := e3
  obtain ⟨rfl, hc⟩ := g3 st k v (k12.shows _ _ h1) (k12.child _ _ _ h1 h2) rfl
  have k13 := k12.trans g1
  obtain ⟨β, s4, e4, r4⟩ := M.bind_eq_ok r3
  have e4' : s4 = _ := (congrArg Prod.snd e4).symm
  subst e4'
  obtain ⟨u, s5, e5, r5⟩ := M.bind_eq_ok r4
  have k5 := h.random.keeps ({ s2' with readings := s2'.readings ++ [k + 1] } : Clocks X)
  have e5' : random ({ s2' with readings := s2'.readings ++ [k + 1] } : Clocks X) = (.ok u, s5) := e5
  rw [e5'] at k5
  obtain ⟨e, s6, e6, r6⟩ := M.bind_eq_ok r5
  have e6' : s6 = s5 := (congrArg Prod.snd e6).symm
  subst e6'
  have : s' = s6 := (congrArg Prod.snd r6).symm
  subst this
  have sh : Shows ({ s2' with readings := s2'.readings ++ [k + 1] } : Clocks X) st k := k13.shows _ _ h1
  refine ⟨by rw [k5.readings]; simp only; rw [k13.readings], by rw [k5.count]; exact k13.count, by rw [k5.parent]; exact k13.parent,
    k5.shows _ _ sh, ?_⟩
  have hq : Shows ({ s2' with readings := s2'.readings ++ [k + 1] } : Clocks X) q (k + 1) := .inl hc
  rcases k5.shows _ _ hq with g | g
  · exact g
  · exfalso
    have : s'.parent q = some st := by rw [k5.parent]; exact (congrFun k13.parent q).trans h2.1
    rw [this] at g
    cases g.2.1

theorem loop_clock {o : OptCfg (Clocks X) ℕ ℝ} {random : M (Clocks X) ℝ} (h : QuietOpt o random) {limit : ℕ} {beta : ℤ → Py ℝ}
    {mag : ℝ} {part : ℕ} {steps : ℤ} {ch ch' : Chain (Clocks X) ℕ} (hv : ch.isValid = o.constraints) {n fuel : ℕ} {s s' : Clocks X}
    {k : ℤ} {y : ℕ} (h1 : Shows s ch.state k) (h2 : ch.state < s.count)
    (hl : Chain.loop (o.chain (annealRule o random limit beta mag) part steps) ch n fuel s = some (.ok y, ch', s')) :
    s'.readings = s.readings ++ [k + 1] ∧ y < s'.count ∧ Shows s' y (if y = ch.state then k else k + 1) := by
  induction fuel generalizing s with
  | zero => simp [Chain.loop] at hl
  | succ fuel ih =>
    unfold Chain.loop at hl
    split at hl
    swap
    · simp at hl
    rcases hp : (o.chain (annealRule o random limit beta mag) part steps).proposal ch.state s with ⟨e | q, s1⟩ <;>
      rw [hp] at hl <;> simp only at hl
    · simp at hl
    obtain ⟨l, hq, hs1⟩ := h.proposal.ok ch.state s q s1 hp
    have kl := lookSteps_keeps l s
    have he : (o.chain (annealRule o random limit beta mag) part steps).erase = Clocks.erase := h.erase
    rw [he] at hl
    obtain ⟨p1, p2, p3, p4⟩ := hs1
    have hne : ch.state ≠ q := by omega
    have hq' : q = (lookSteps s l).count := hq.trans kl.count.symm
    -- the world in which the constraints are called
    have c1 : (Clocks.erase ch.state s1).count = s.count + 1 := by
      show s1.count = _
      rw [p3]; show (lookSteps s l).count + 1 = _; rw [kl.count]
    have c2 : (Clocks.erase ch.state s1).readings = s.readings := by
      show s1.readings = _
      rw [p4]; exact kl.readings
    have c3 : Shows (Clocks.erase ch.state s1) ch.state k := by
      have g := kl.shows _ _ h1
      unfold Shows at g ⊢
      have e1 : (Clocks.erase ch.state s1).clock ch.state = (lookSteps s l).clock ch.state := by
        show s1.clock ch.state = _
        rw [p2]; show Function.update _ _ _ _ = _
        rw [← hq', Function.update_of_ne hne]
      have e2 : (Clocks.erase ch.state s1).parent ch.state = none := by simp [Clocks.erase]
      rw [e1, e2]
      rcases g with g | g
      · exact .inl g
      · exact .inr ⟨g.1, rfl, g.2.2⟩
    have c4 : ChildOf (Clocks.erase ch.state s1) q ch.state k := by
      constructor
      · show Function.update s1.parent ch.state none q = _
        rw [Function.update_of_ne hne.symm, p1]
        show Function.update _ _ _ _ = _
        rw [← hq', Function.update_self]
      · left
        show s1.clock q = none
        rw [p2]
        show Function.update _ _ _ _ = _
        rw [← hq', Function.update_self]
    have hcon : ∀ con ∈ ch.isValid, ∀ r, LooksOnly (con.call r) := by rw [hv]; exact h.constraint
    have kv := validator_keeps hcon q (Clocks.erase ch.state s1)
    rcases hvd : validator q ch.isValid (Clocks.erase ch.state s1) with ⟨e | (_ | _), s3⟩ <;> rw [hvd] at hl kv <;> simp only at hl kv
    · simp at hl
    · have := ih (s := s3) (kv.shows _ _ c3) (by rw [kv.count, c1]; omega) hl
      rw [kv.readings, c2] at this
      exact this
    · rcases ha : (o.chain (annealRule o random limit beta mag) part steps).accept q s3 with ⟨e | b, s4⟩ <;> rw [ha] at hl
      · simp at hl
      obtain ⟨g1, g2, g3, g4, g5⟩ := annealRule_spec h (kv.shows _ _ c3) (kv.child _ _ _ c3 c4) ha
      rw [kv.readings, c2] at g1
      rw [kv.count, c1] at g2
      cases b <;> simp only [Option.some.injEq, Prod.mk.injEq, Except.ok.injEq] at hl
      · obtain ⟨rfl, -, rfl⟩ := hl
        exact ⟨g1, by omega, by rw [if_pos rfl]; exact g4⟩
      · obtain ⟨rfl, -, rfl⟩ := hl
        exact ⟨g1, by omega, by rw [if_neg hne.symm]; exact .inl g5⟩

/-- The number of moves among the first `i` steps of a run: how often two consecutive states of it differ. -/
def movesBefore (ys : List ℕ) (i : ℕ) : ℕ := ((List.range i).filter (fun j => ys[j]? ≠ ys[j + 1]?)).length

theorem movesBefore_cons (a b : ℕ) (ys : List ℕ) (i : ℕ) :
    movesBefore (a :: b :: ys) (i + 1) = (if a = b then 0 else 1) + movesBefore (b :: ys) i := by
  unfold movesBefore
  rw [List.range_succ_eq_map, List.filter_cons, List.filter_map, apply_ite List.length]
  simp only [List.length_cons, List.length_map]
  have : (List.range i).filter ((fun j => decide ((a :: b :: ys)[j]? ≠ (a :: b :: ys)[j + 1]?)) ∘ Nat.succ) =
      (List.range i).filter (fun j => decide ((b :: ys)[j]? ≠ (b :: ys)[j + 1]?)) := by
    apply List.filter_congr
    intro j _
    simp [Function.comp]
  rw [this]
  by_cases e : a = b
  · simp [e]
  · simp [e]; omega

theorem movesBefore_zero (ys : List ℕ) : movesBefore ys 0 = 0 := rfl

theorem watch_clock {o : OptCfg (Clocks X) ℕ ℝ} {random : M (Clocks X) ℝ} (h : QuietOpt o random) {limit : ℕ} {beta : ℤ → Py ℝ}
    {mag : ℝ} {part : ℕ} {steps : ℤ} {fuel body n : ℕ} {ch : Chain (Clocks X) ℕ} (hv : ch.isValid = o.constraints)
    (hns : NoStop (o.chain (annealRule o random limit beta mag) part steps) o.constraints)
    (hn : ch.counter = some (n + 1)) {best : ℕ × ℝ} {s : Clocks X} {k : ℤ} (h1 : Shows s ch.state k) (h2 : ch.state < s.count)
    (hst : (o.watch (o.chain (annealRule o random limit beta mag) part steps) fuel body ch best s).status = some (.ok ())) :
    (o.watch (o.chain (annealRule o random limit beta mag) part steps) fuel body ch best s).world.readings = s.readings ++
      (List.range (o.watch (o.chain (annealRule o random limit beta mag) part steps) fuel body ch best s).yielded.length).map
        (fun i => k + 1 +
          movesBefore (ch.state :: (o.watch (o.chain (annealRule o random limit beta mag) part steps) fuel body ch best s).yielded) i) := by
  induction body generalizing ch best s k n with
  | zero => simp [OptCfg.watch] at hst
  | succ body ih =>
    set c := o.chain (annealRule o random limit beta mag) part steps with hc
    rcases hx : Chain.next c ch fuel s with _ | ⟨r, ch', s1⟩
    · simp only [OptCfg.watch, hx] at hst; cases hst
    obtain ⟨hvd, hres⟩ := next_result hn hx
    rcases hres with ⟨y, rfl, r1, r2, -, -⟩ | ⟨e, rfl, rfl, r3, -⟩
    · have hloop : Chain.loop c ch (n + 1) fuel s = some (.ok y, ch', s1) := by
        have := hx
        unfold Chain.next at this
        rw [hn] at this
        exact this
      obtain ⟨l1, l2, l3⟩ := loop_clock h hv h1 h2 hloop
      have hw : o.watch c fuel (body + 1) ch best s = (match o.consumer y s1 with
          | (.error e, s2) => ⟨some (.error e), [y], [], best, s2⟩
          | (.ok (), s2) =>
            match o.score y s2 with
            | (.error e, s3) => ⟨some (.error (genErr e)), [y], [], best, s3⟩
            | (.ok a, s3) =>
              { OptCfg.watch o c fuel body ch' (o.update best y a) s3 with
                yielded := y :: (OptCfg.watch o c fuel body ch' (o.update best y a) s3).yielded
                trace := ⟨y, a, o.update best y a⟩ :: (OptCfg.watch o c fuel body ch' (o.update best y a) s3).trace }) := by
        conv_lhs => unfold OptCfg.watch
        rw [hx]
        simp only
        rcases o.consumer y s1 with ⟨_ | _, s2⟩
        · rfl
        · simp only
          rcases o.score y s2 with ⟨_ | _, s3⟩ <;> rfl
      have kc := (h.consumer y).keeps s1
      rcases hco : o.consumer y s1 with ⟨e | u, s2⟩ <;> rw [hco] at hw kc <;> simp only at hw kc
      · rw [hw] at hst; simp at hst
      have ks := (h.score y).keeps s2
      rcases hsc : o.score y s2 with ⟨e | a, s3⟩ <;> rw [hsc] at hw ks <;> simp only at hw ks
      · rw [hw] at hst; simp at hst
      have kk := kc.trans ks
      rw [hw] at hst ⊢
      simp only at hst ⊢
      have sh := kk.shows _ _ l3
      have := ih (ch := ch') (best := o.update best y a) (s := s3) (n := n + 1) (hvd.trans hv) r1 (r2 ▸ sh)
        (by rw [r2, kk.count]; exact l2) hst
      rw [this, kk.readings, l1, r2, List.length_cons, List.range_succ_eq_map, List.map_cons, List.map_map, List.append_assoc]
      congr 1
      rw [movesBefore_zero]
      simp only [List.singleton_append, Nat.cast_zero, add_zero, List.cons.injEq, true_and]
      apply List.map_congr_left
      intro i _
      simp only [Function.comp, Nat.succ_eq_add_one]
      rw [movesBefore_cons]
      by_cases e : y = ch.state
      · rw [if_pos e, if_pos e.symm]; push_cast; ring
      · rw [if_neg e, if_neg (fun g => e g.symm)]; push_cast; ring
    · have he : e = .stopIteration := by
        by_contra hne
        have : o.watch c fuel (body + 1) ch' best s = ⟨some (.error e), [], [], best, s1⟩ := by
          conv_lhs => unfold OptCfg.watch
          rw [hx]
          rcases e <;> first | rfl | exact absurd rfl hne
        rw [this] at hst
        simp at hst
      subst he
      have hw : o.watch c fuel (body + 1) ch' best s = ⟨some (.ok ()), [], [], best, s1⟩ := by
        conv_lhs => unfold OptCfg.watch
        rw [hx]
      rw [hw]
      simp only [List.length_nil, List.range_zero, List.map_nil, List.append_nil]
      have := hx
      unfold Chain.next at this
      rw [hn] at this
      have hy : ¬ n + 1 < yields c := fun hlt => r3 hlt (hv ▸ hns) rfl
      rcases fuel with _ | fuel
      · simp [Chain.loop] at this
      simp only at this
      unfold Chain.loop at this
      rw [if_neg (by unfold yields at hy; omega)] at this
      simp only [Option.some.injEq, Prod.mk.injEq] at this
      rw [this.2.2]

/-- **C94 (partial)** What simulated annealing really asks its schedule for: in a complete run the schedule is called once per step, in
step `i` with the time of the initial plan plus one plus the number of moves made in the steps before.  The constraints, the score, the
consumer and the proposals are arbitrary as long as they leave the clock alone except for reading it. -/
theorem C94_clock_partial (o : OptCfg (Clocks X) ℕ ℝ) (random : M (Clocks X) ℝ) (h : QuietOpt o random) (limit : ℕ) (beta : ℤ → Py ℝ)
    (mag : ℝ) (steps : ℤ) (fuel body : ℕ) (s : Clocks X) (k : ℤ) (h1 : Shows s o.initial k) (h2 : o.initial < s.count)
    (hns : NoStop (o.chain (annealRule o random limit beta mag) o.initial steps) o.constraints) (a : ℝ) (run : OptRun (Clocks X) ℕ ℝ)
    (hr : o.anneal random limit beta mag steps fuel body s = .ok (a, run)) (hst : run.status = some (.ok ())) :
    run.world.readings = s.readings ++
      (List.range (run.yielded.length - 1)).map (fun i => k + 1 + (movesBefore run.yielded i : ℤ)) := by
  unfold OptCfg.anneal OptCfg.singleRun at hr
  set c := o.chain (annealRule o random limit beta mag) o.initial steps with hc
  unfold Chain.init checkInitial at hr
  have kv := validator_keeps h.constraint o.initial s
  have hci : c.initial = o.initial := rfl
  rw [hci] at hr
  rcases hv : validator o.initial o.constraints s with ⟨e | (_ | _), s1⟩ <;> rw [hv] at hr kv
  · cases hr
  · simp only at hr
    rcases hf : failedConstraints o.initial o.constraints s1 with ⟨e | f, s2⟩ <;> rw [hf] at hr <;> cases hr
  simp only at hr kv
  have ks := (h.score o.initial).keeps s1
  rcases hs : o.score o.initial s1 with ⟨e | a', s2⟩ <;> rw [hs] at hr ks <;> simp only at hr ks
  · cases hr
  have k2 := kv.trans ks
  simp only [Except.ok.injEq, Prod.mk.injEq] at hr
  obtain ⟨rfl, rfl⟩ := hr
  rcases body with _ | body
  · simp [OptCfg.watch] at hst
  have hw : o.watch c fuel (body + 1) (Chain.iter c ⟨o.constraints, none, o.initial⟩) (o.initial, a') s2 = (match o.consumer o.initial s2 with
      | (.error e, s3) => ⟨some (.error e), [o.initial], [], (o.initial, a'), s3⟩
      | (.ok (), s3) =>
        match o.score o.initial s3 with
        | (.error e, s4) => ⟨some (.error (genErr e)), [o.initial], [], (o.initial, a'), s4⟩
        | (.ok b, s4) =>
          { OptCfg.watch o c fuel body ⟨o.constraints, some 1, o.initial⟩ (o.update (o.initial, a') o.initial b) s4 with
            yielded := o.initial ::
              (OptCfg.watch o c fuel body ⟨o.constraints, some 1, o.initial⟩ (o.update (o.initial, a') o.initial b) s4).yielded
            trace := ⟨o.initial, b, o.update (o.initial, a') o.initial b⟩ ::
              (OptCfg.watch o c fuel body ⟨o.constraints, some 1, o.initial⟩ (o.update (o.initial, a') o.initial b) s4).trace }) := by
    have hn : Chain.next c (Chain.iter c ⟨o.constraints, none, o.initial⟩) fuel s2 =
        some (.ok o.initial, ⟨o.constraints, some 1, o.initial⟩, s2) := rfl
    conv_lhs => unfold OptCfg.watch
    rw [hn]
    simp only
    rcases o.consumer o.initial s2 with ⟨_ | _, s3⟩
    · rfl
    · simp only
      rcases o.score o.initial s3 with ⟨_ | _, s4⟩ <;> rfl
  have kc := (h.consumer o.initial).keeps s2
  rcases hco : o.consumer o.initial s2 with ⟨e | u, s3⟩ <;> rw [hco] at hw kc <;> simp only at hw kc
  · rw [hw] at hst; simp at hst
  have kd := (h.score o.initial).keeps s3
  rcases hsc : o.score o.initial s3 with ⟨e | b, s4⟩ <;> rw [hsc] at hw kd <;> simp only at hw kd
  · rw [hw] at hst; simp at hst
  have kk := (k2.trans kc).trans kd
  rw [hw] at hst ⊢
  simp only at hst ⊢
  have := watch_clock h (ch := ⟨o.constraints, some 1, o.initial⟩) rfl hns rfl (kk.shows _ _ h1) (by rw [kk.count]; exact h2) hst
  rw [this, kk.readings]
  rfl

theorem movesBefore_le (ys : List ℕ) (i : ℕ) : movesBefore ys i ≤ i := by
  unfold movesBefore
  exact (List.length_filter_le _ _).trans (by rw [List.length_range])

/-- **C94 (partial)** The clock never runs ahead of the chain, and it is right in every step exactly when every earlier proposal was
accepted. -/
theorem C94_on_time_partial (o : OptCfg (Clocks X) ℕ ℝ) (random : M (Clocks X) ℝ) (h : QuietOpt o random) (limit : ℕ) (beta : ℤ → Py ℝ)
    (mag : ℝ) (steps : ℤ) (fuel body : ℕ) (s : Clocks X) (h1 : Shows s o.initial 0) (h2 : o.initial < s.count) (h0 : s.readings = [])
    (hns : NoStop (o.chain (annealRule o random limit beta mag) o.initial steps) o.constraints) (a : ℝ) (run : OptRun (Clocks X) ℕ ℝ)
    (hr : o.anneal random limit beta mag steps fuel body s = .ok (a, run)) (hst : run.status = some (.ok ())) :
    run.world.readings.length = run.yielded.length - 1 ∧
    (∀ (i : ℕ) (t : ℤ), run.world.readings[i]? = some t → 1 ≤ t ∧ t ≤ i + 1) ∧
    (∀ (i : ℕ) (t : ℤ), run.world.readings[i]? = some t →
      (t = i + 1 ↔ ∀ j < i, run.yielded[j]? ≠ run.yielded[j + 1]?)) := by
  have hc := C94_clock_partial o random h limit beta mag steps fuel body s 0 h1 h2 hns a run hr hst
  rw [h0, List.nil_append] at hc
  have hg : ∀ (i : ℕ) (t : ℤ), run.world.readings[i]? = some t → t = 0 + 1 + (movesBefore run.yielded i : ℤ) := by
    intro i t ht
    rw [hc, List.getElem?_map] at ht
    by_cases hi : i < run.yielded.length - 1
    · rw [List.getElem?_range hi] at ht
      simpa using ht.symm
    · rw [List.getElem?_eq_none (by simpa using hi)] at ht
      cases ht
  refine ⟨by rw [hc]; simp, ?_, ?_⟩
  · intro i t ht
    rw [hg i t ht]
    have := movesBefore_le run.yielded i
    omega
  · intro i t ht
    rw [hg i t ht]
    have hle := movesBefore_le run.yielded i
    have : (0 + 1 + (movesBefore run.yielded i : ℤ) = i + 1) ↔ movesBefore run.yielded i = i := by omega
    rw [this]
    unfold movesBefore
    constructor
    · intro e j hj
      have e' : ((List.range i).filter (fun j => decide (run.yielded[j]? ≠ run.yielded[j + 1]?))).length = (List.range i).length := by
        rw [List.length_range]; exact e
      have := List.length_filter_eq_length_iff.1 e' j (List.mem_range.2 hj)
      simpa using this
    · intro g
      refine (List.length_filter_eq_length_iff.2 ?_).trans (List.length_range)
      intro j hj
      simpa using g j (List.mem_range.1 hj)

/-- **C94 (partial)** While proposals are rejected the clock stands still: a run that stays at its initial plan asks the schedule for the
same time over and over. -/
theorem C94_stands_still (o : OptCfg (Clocks X) ℕ ℝ) (random : M (Clocks X) ℝ) (h : QuietOpt o random) (limit : ℕ) (beta : ℤ → Py ℝ)
    (mag : ℝ) (steps : ℤ) (fuel body : ℕ) (s : Clocks X) (k : ℤ) (h1 : Shows s o.initial k) (h2 : o.initial < s.count)
    (hns : NoStop (o.chain (annealRule o random limit beta mag) o.initial steps) o.constraints) (a : ℝ) (run : OptRun (Clocks X) ℕ ℝ)
    (hr : o.anneal random limit beta mag steps fuel body s = .ok (a, run)) (hst : run.status = some (.ok ()))
    (n : ℕ) (hy : run.yielded = List.replicate (n + 1) o.initial) :
    run.world.readings = s.readings ++ List.replicate n (k + 1) := by
  rw [C94_clock_partial o random h limit beta mag steps fuel body s k h1 h2 hns a run hr hst, hy]
  congr 1
  rw [List.eq_replicate_iff]
  refine ⟨by simp, ?_⟩
  intro t ht
  simp only [List.length_replicate, Nat.add_sub_cancel, List.mem_map, List.mem_range] at ht
  obtain ⟨i, hi, rfl⟩ := ht
  have : movesBefore (List.replicate (n + 1) o.initial) i = 0 := by
    unfold movesBefore
    rw [List.length_eq_zero_iff, List.filter_eq_nil_iff]
    intro j hj
    have := List.mem_range.1 hj
    rw [List.getElem?_replicate, List.getElem?_replicate, if_pos (by omega), if_pos (by omega)]
    simp
  rw [this]
  simp

/-! ### A run that never leaves its cold phase -/

/-- Every proposal is a new plan, which is worse than the initial one by 1. -/
noncomputable def frozenOpt : OptCfg (Clocks Unit) ℕ ℝ where
  proposal st := fun s => (.ok s.count, s.child st)
  constraints := []
  erase := Clocks.erase
  initial := 0
  score r := fun s => (.ok (if r = 0 then 0 else 1), s)
  maximize := false
  consumer _ := fun s => (.ok (), s)

/-- every draw is 1/2 -/
noncomputable def halfDraw : M (Clocks Unit) ℝ := fun s => (.ok (1 / 2), s)

/-- one initial plan without a parent -/
def oneClock : Clocks Unit := ⟨fun _ => none, fun _ => none, 1, (), []⟩

/-- the schedule "one step hot, one step cold" -/
def hotCold (t : ℤ) : Py ℝ := (jumpcycleBeta 1 1 t).map (fun x => (x : ℝ))

theorem sameClocks_refl (s : Clocks X) : SameClocks s s := ⟨rfl, rfl, rfl, rfl⟩

theorem frozenOpt_quiet : QuietOpt frozenOpt halfDraw where
  erase := rfl
  proposal := ⟨fun st s q s1 h => by cases h; exact ⟨[], rfl, sameClocks_refl _⟩⟩
  constraint := by intro con hc; cases hc
  score r s := ⟨[], sameClocks_refl _⟩
  consumer r s := ⟨[], sameClocks_refl _⟩
  random s := ⟨[], sameClocks_refl _⟩

theorem hotCold_one : hotCold 1 = .ok 1 := by
  have : jumpcycleBeta 1 1 1 = .ok 1 := by rfl
  unfold hotCold; rw [this]; simp [Except.map]

theorem hotCold_two : hotCold 2 = .ok 0 := by
  have : jumpcycleBeta 1 1 2 = .ok 0 := by rfl
  unfold hotCold; rw [this]; simp [Except.map]

/-- the decision about a new plan in the first cold step -/
theorem frozen_rejects (s : Clocks Unit) (q : ℕ) (hq : q ≠ 0) (h1 : Shows s 0 0) (h2 : s.parent q = some 0) (h3 : s.clock q = none) :
    ∃ s', annealRule frozenOpt halfDraw 2 hotCold 1 q s = (.ok false, s') := by
  have ht : ∃ s', readClock 2 q s = (.ok 1, s') := by
    unfold readClock
    have : ∃ s', stepOf 2 q s = (.ok 1, s') := by
      have h0 : ∃ s', stepOf 1 0 s = (.ok 0, s') := by
        rcases h1 with h1 | h1
        · exact ⟨s, by show (match s.clock 0 with | some k => _ | none => _) = _; rw [h1]⟩
        · exact ⟨s.store 0 0, by show (match s.clock 0 with | some k => _ | none => _) = _; rw [h1.1]; simp only; rw [h1.2.1]⟩
      obtain ⟨s0, h0⟩ := h0
      refine ⟨s0.store q 1, ?_⟩
      show (match s.clock q with | some k => _ | none => _) = _
      rw [h3]; simp only; rw [h2]; simp only; rw [h0]; rfl
    obtain ⟨s', h'⟩ := this
    rw [h']
    exact ⟨_, rfl⟩
  obtain ⟨s', ht⟩ := ht
  refine ⟨s', ?_⟩
  have hp : (parentOf q : M (Clocks Unit) _) s = (.ok (some 0), s) := by unfold parentOf; rw [h2]
  have ha : frozenOpt.score q s = (.ok 1, s) := by simp [frozenOpt, hq]
  have hb : frozenOpt.score 0 s = (.ok 0, s) := by simp [frozenOpt]
  refine (anneal_eq (u := 1 / 2) (s5 := s') hp ha hb ht hotCold_one rfl).trans ?_
  have h2e : (2 : ℝ) ≤ Real.exp 1 := by
    have := Real.add_one_le_exp (1 : ℝ)
    linarith
  have hle : Real.exp (-1) ≤ 1 / 2 := by
    rw [Real.exp_neg, ← one_div]
    exact one_div_le_one_div_of_le (by norm_num) h2e
  have hl : -(1 * 1 * lossOf frozenOpt.maximize 1 0) = (-1 : ℝ) := by simp [lossOf, frozenOpt]
  rw [hl, if_neg]
  · rw [decide_eq_false (not_lt.2 hle)]
  · have h1024 : (1 : ℝ) < 2 ^ 1024 := one_lt_pow₀ one_lt_two (by norm_num)
    exact not_le.2 (lt_of_le_of_lt hle (lt_trans (by norm_num) h1024))

theorem stepOf_error {limit r : ℕ} {s s' : Clocks X} {e : PyErr} (h : stepOf limit r s = (.error e, s')) : e = .recursionError := by
  induction limit generalizing r s s' e with
  | zero => cases h; rfl
  | succ n ih =>
    have h' : (match s.clock r with
      | some k => (.ok k, s)
      | none => match s.parent r with
        | none => (.ok 0, s.store r 0)
        | some q => match stepOf n q s with
          | (.error e, s1) => (.error e, s1)
          | (.ok k, s1) => (.ok (k + 1), s1.store r (k + 1)) : Py ℤ × Clocks X) = (.error e, s') := h
    rcases hc : s.clock r with _ | c <;> rw [hc] at h'
    · rcases hp : s.parent r with _ | q <;> rw [hp] at h'
      · cases h'
      · simp only at h'
        rcases hq : stepOf n q s with ⟨e1 | k, s1⟩ <;> rw [hq] at h'
        · cases h'; exact ih hq
        · cases h'
    · cases h'

theorem hotCold_ok (t : ℤ) : ∃ x, hotCold t = .ok x := by
  unfold hotCold jumpcycleBeta timeInCycle
  simp only [Nat.reduceAdd, OfNat.ofNat_ne_zero, if_false]
  exact ⟨_, rfl⟩

theorem frozen_noStop (limit : ℕ) (steps : ℤ) :
    NoStop (frozenOpt.chain (annealRule frozenOpt halfDraw limit hotCold 1) frozenOpt.initial steps) frozenOpt.constraints := by
  refine ⟨(fun r s s' h => by cases h), ?_, (by intro con hc; cases hc)⟩
  intro r s s' h
  have h' : annealRule frozenOpt halfDraw limit hotCold 1 r s = (.error .stopIteration, s') := h
  unfold annealRule annealAccept at h'
  rcases hp : s.parent r with _ | q
  · have hp' : (parentOf r : M (Clocks Unit) _) s = (.ok none, s) := by unfold parentOf; rw [hp]
    rw [M.bind_ok hp'] at h'
    cases h'
  · have hp' : (parentOf r : M (Clocks Unit) _) s = (.ok (some q), s) := by unfold parentOf; rw [hp]
    rw [M.bind_ok hp'] at h'
    simp only at h'
    have ha : frozenOpt.score r s = (.ok (if r = 0 then 0 else 1), s) := rfl
    have hb : frozenOpt.score q s = (.ok (if q = 0 then 0 else 1), s) := rfl
    rw [M.bind_ok ha, M.bind_ok hb] at h'
    rcases ht : readClock limit r s with ⟨e | t, s1⟩
    · rw [M.bind_error ht] at h'
      unfold readClock at ht
      rcases hs : stepOf limit r s with ⟨e1 | k, s2⟩ <;> rw [hs] at ht <;> simp only at ht
      · have := stepOf_error hs
        cases ht
        subst this
        cases h'
      · cases ht
    · rw [M.bind_ok ht] at h'
      obtain ⟨x, hx⟩ := hotCold_ok t
      have hl : (M.lift (hotCold t) : M (Clocks Unit) ℝ) s1 = (.ok x, s1) := by unfold M.lift; rw [hx]
      rw [M.bind_ok hl] at h'
      have hd : halfDraw s1 = (.ok (1 / 2), s1) := rfl
      rw [M.bind_ok hd] at h'
      revert h'
      generalize -x * 1 * _ = z
      intro h'
      by_cases hz : 2 ^ 1024 ≤ Real.exp z
      · have hm : (M.lift (mathExp z) : M (Clocks Unit) ℝ) s1 = (.error .overflowError, s1) := by
          unfold M.lift mathExp; rw [if_pos hz]
        rw [M.bind_error hm] at h'
        cases h'
      · have hm : (M.lift (mathExp z) : M (Clocks Unit) ℝ) s1 = (.ok (Real.exp z), s1) := by
          unfold M.lift mathExp; rw [if_neg hz]
        rw [M.bind_ok hm] at h'
        cases h'

theorem frozen_loop {n : ℕ} {steps : ℤ} (hn : ((n + 1 : ℕ) : ℤ) < steps) (s : Clocks Unit) (h1 : Shows s 0 0) (h2 : 0 < s.count) :
    ∃ s', Chain.loop (frozenOpt.chain (annealRule frozenOpt halfDraw 2 hotCold 1) 0 steps) ⟨[], some (n + 1), 0⟩ (n + 1) 1 s =
      some (.ok 0, ⟨[], some (n + 2), 0⟩, s') := by
  obtain ⟨s', hs'⟩ := frozen_rejects (Clocks.erase 0 (s.child 0)) s.count (by omega)
    (by
      have hne : (0 : ℕ) ≠ s.count := by omega
      rcases h1 with h1 | h1
      · left
        show Function.update s.clock s.count none 0 = _
        rw [Function.update_of_ne hne]; exact h1
      · right
        refine ⟨?_, ?_, rfl⟩
        · show Function.update s.clock s.count none 0 = _
          rw [Function.update_of_ne hne]; exact h1.1
        · show Function.update (s.child 0).parent 0 none 0 = none
          rw [Function.update_self])
    (by
      show Function.update (Function.update s.parent s.count (some 0)) 0 none s.count = some 0
      rw [Function.update_of_ne (by omega), Function.update_self])
    (by
      show Function.update s.clock s.count none s.count = none
      rw [Function.update_self])
  refine ⟨s', ?_⟩
  unfold Chain.loop
  rw [if_pos (by exact hn)]
  have hp : (frozenOpt.chain (annealRule frozenOpt halfDraw 2 hotCold 1) 0 steps).proposal 0 s = (.ok s.count, s.child 0) := rfl
  have he : (frozenOpt.chain (annealRule frozenOpt halfDraw 2 hotCold 1) 0 steps).erase = Clocks.erase := rfl
  have ha : (frozenOpt.chain (annealRule frozenOpt halfDraw 2 hotCold 1) 0 steps).accept s.count (Clocks.erase 0 (s.child 0)) =
    (.ok false, s') := hs'
  simp only [hp, he, validator, ha]

theorem frozen_watch (m n : ℕ) (best : ℕ × ℝ) (s : Clocks Unit) (h1 : Shows s 0 0) (h2 : 0 < s.count) :
    ∃ run : OptRun (Clocks Unit) ℕ ℝ, frozenOpt.watch (frozenOpt.chain (annealRule frozenOpt halfDraw 2 hotCold 1) 0 ((n + 1 + m : ℕ) : ℤ)) 1 (m + 1)
      ⟨[], some (n + 1), 0⟩ best s = run ∧ run.status = some (.ok ()) ∧ run.yielded = List.replicate m 0 ∧
      run.world.readings = s.readings ++ List.replicate m 1 := by
  induction m generalizing n best s with
  | zero =>
    refine ⟨_, rfl, ?_⟩
    have : Chain.next (frozenOpt.chain (annealRule frozenOpt halfDraw 2 hotCold 1) 0 ((n + 1 + 0 : ℕ) : ℤ)) ⟨[], some (n + 1), 0⟩ 1 s =
        some (.error .stopIteration, ⟨[], some (n + 1), 0⟩, s) := by
      show Chain.loop _ _ _ _ _ = _
      unfold Chain.loop
      rw [if_neg (by simp [OptCfg.chain])]
    unfold OptCfg.watch
    rw [this]
    simp
  | succ m ih =>
    obtain ⟨s', hs'⟩ := frozen_loop (n := n) (steps := ((n + 1 + (m + 1) : ℕ) : ℤ)) (by push_cast; omega) s h1 h2
    obtain ⟨l1, l2, l3⟩ := loop_clock frozenOpt_quiet (ch := ⟨[], some (n + 1), 0⟩) rfl h1 h2 hs'
    obtain ⟨run, r1, r2, r3, r4⟩ := ih (n + 1) (frozenOpt.update best 0 0) s' l3 l2
    have hsteps : n + 1 + 1 + m = n + 1 + (m + 1) := by omega
    rw [hsteps] at r1
    have hn : Chain.next (frozenOpt.chain (annealRule frozenOpt halfDraw 2 hotCold 1) 0 ((n + 1 + (m + 1) : ℕ) : ℤ))
        ⟨[], some (n + 1), 0⟩ 1 s = some (.ok 0, ⟨[], some (n + 2), 0⟩, s') := hs'
    have hsc : frozenOpt.score 0 s' = (.ok 0, s') := by simp [frozenOpt]
    have hco : frozenOpt.consumer 0 s' = (.ok (), s') := rfl
    refine ⟨_, rfl, ?_⟩
    conv => arg 1; unfold OptCfg.watch
    conv => arg 2; unfold OptCfg.watch
    rw [hn]
    simp only [hco, hsc]
    rw [r1]
    refine ⟨r2, by rw [r3]; rfl, ?_⟩
    rw [r4, l1, List.append_assoc]
    rfl

/-- **C94 (violation)** The schedule "one step hot, one step cold" should be hot in the second step (`hotCold 2 = 0`, and a hot step
accepts everything).  But a run from an optimum, whose first step is cold, rejects the first proposal, the clock stands still, and
the run stays cold: however long it is, the schedule is only ever asked for the time 1, every proposal is rejected, and no state
but the initial one is ever returned. -/
theorem C94_frozen_violation : hotCold 1 = .ok 1 ∧ hotCold 2 = .ok 0 ∧
    ∀ n : ℕ, ∃ run : OptRun (Clocks Unit) ℕ ℝ, frozenOpt.anneal halfDraw 2 hotCold 1 ((n + 1 : ℕ) : ℤ) 1 (n + 2) oneClock = .ok (0, run) ∧
      run.status = some (.ok ()) ∧ run.yielded = List.replicate (n + 1) 0 ∧ run.world.readings = List.replicate n 1 := by
  refine ⟨hotCold_one, hotCold_two, fun n => ?_⟩
  obtain ⟨run, r1, r2, r3, r4⟩ := frozen_watch n 0 (frozenOpt.update (0, 0) 0 0) oneClock (.inr ⟨rfl, rfl, rfl⟩) (by decide)
  have hsc : frozenOpt.score frozenOpt.initial oneClock = (.ok 0, oneClock) := by simp [frozenOpt]
  have hco : frozenOpt.consumer 0 oneClock = (.ok (), oneClock) := rfl
  have hsc' : frozenOpt.score 0 oneClock = (.ok 0, oneClock) := by simp [frozenOpt]
  rw [show 0 + 1 + n = n + 1 by omega] at r1
  refine ⟨{ run with yielded := 0 :: run.yielded, trace := ⟨0, 0, frozenOpt.update (0, 0) 0 0⟩ :: run.trace }, ?_, r2, by
    rw [r3]; rfl, by simp only; rw [r4]; rfl⟩
  unfold OptCfg.anneal OptCfg.singleRun
  have hi : Chain.init (frozenOpt.chain (annealRule frozenOpt halfDraw 2 hotCold 1) frozenOpt.initial ((n + 1 : ℕ) : ℤ))
      frozenOpt.constraints oneClock = (.ok ⟨[], none, 0⟩, oneClock) := rfl
  rw [hi]
  simp only
  rw [hsc]
  simp only
  congr 2
  have hn : Chain.next (frozenOpt.chain (annealRule frozenOpt halfDraw 2 hotCold 1) frozenOpt.initial ((n + 1 : ℕ) : ℤ))
      (Chain.iter (frozenOpt.chain (annealRule frozenOpt halfDraw 2 hotCold 1) frozenOpt.initial ((n + 1 : ℕ) : ℤ)) ⟨[], none, 0⟩) 1 oneClock =
      some (.ok 0, ⟨[], some 1, 0⟩, oneClock) := rfl
  conv_lhs => unfold OptCfg.watch
  rw [hn]
  simp only [hco, hsc']
  have r1' := r1
  rw [show frozenOpt.initial = 0 from rfl]
  rw [r1']

/-! ### Non-vacuity -/

/-- the hypotheses of the theorems above hold for the run of `C94_frozen_violation` -/
example (n : ℕ) : ∃ run : OptRun (Clocks Unit) ℕ ℝ, frozenOpt.anneal halfDraw 2 hotCold 1 ((n + 1 : ℕ) : ℤ) 1 (n + 2) oneClock = .ok (0, run) ∧
    run.world.readings = oneClock.readings ++ List.replicate n (0 + 1) := by
  obtain ⟨run, h1, h2, h3, -⟩ := C94_frozen_violation.2.2 n
  exact ⟨run, h1, C94_stands_still frozenOpt halfDraw frozenOpt_quiet 2 hotCold 1 _ 1 (n + 2) oneClock 0 (.inr ⟨rfl, rfl, rfl⟩) (by decide)
    (frozen_noStop 2 _) 0 run h1 h2 n h3⟩

/-- looking up `step` on a child whose parent was erased after its time was known -/
example : (stepOf 5 2 (⟨fun r => if r = 2 then some 1 else none, fun r => if r = 1 then some 7 else none, 3, (), []⟩ : Clocks Unit)).1 =
    .ok 8 := rfl

end GC

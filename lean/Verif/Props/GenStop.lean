import Verif.Props.OptRefine
import Verif.Props.Partisan

/-!
# C101: no exception of an optimizer's generator is mistaken for its end; C68: no districts
-/

set_option linter.unusedSectionVars false
set_option autoImplicit false

namespace GC

section
variable {S R A : Type}

/-- a resumed generator raises no `StopIteration` of its own -/
def Resumed.NoStop (r : Resumed S R A) : Prop := ∀ e g b s, r = some (.raises e, g, b, s) → e ≠ .stopIteration

theorem genErr_ne (e : PyErr) : genErr e ≠ .stopIteration := by
  unfold genErr
  split
  · exact fun h => by cases h
  · assumption

theorem noStop_raises {e : PyErr} (h : e ≠ .stopIteration) (g : OptGen S R) (b : BestAttr R A) (s : S) :
    Resumed.NoStop (some (.raises e, g, b, s)) := by
  intro e' g' b' s' he
  cases he
  exact h

theorem noStop_stops (g : OptGen S R) (b : BestAttr R A) (s : S) : Resumed.NoStop (some (.stops, g, b, s)) := by
  intro e' g' b' s' he
  cases he

theorem noStop_none : Resumed.NoStop (none : Resumed S R A) := by
  intro e' g' b' s' he
  cases he

theorem advance_noStop (cfg : ChainCfg S R) (ch : Chain S R) (fuel : ℕ) (b : BestAttr R A) (s : S) (wait : Chain S R → R → OptGen S R)
    (after : S → Resumed S R A) (ha : ∀ s, (after s).NoStop) : (advance cfg ch fuel b s wait after).NoStop := by
  unfold advance
  split
  · exact noStop_none
  · exact ha _
  · rename_i h _
    refine noStop_raises (fun he => ?_) _ _ _
    subst he
    simp_all
  · intro e' g' b' s' he
    cases he

theorem startChain_noStop (o : OptCfg S R A) (accept : R → M S Bool) (length : ℤ) (fuel : ℕ) (b : BestAttr R A) (s : S)
    (wait : ChainCfg S R → Chain S R → R → OptGen S R) (after : S → Resumed S R A) (ha : ∀ s, (after s).NoStop) :
    (startChain o accept length fuel b s wait after).NoStop := by
  unfold startChain
  split
  · exact noStop_raises (by decide) _ _ _
  · split
    · exact noStop_raises (genErr_ne _) _ _ _
    · exact advance_noStop _ _ _ _ _ _ _ ha

theorem beginBursts_noStop (o : OptCfg S R A) (accept : R → M S Bool) (length : ℤ) (fuel n : ℕ) (b : BestAttr R A) (s : S) :
    (beginBursts o accept length fuel n b s).NoStop := by
  induction n generalizing s with
  | zero => exact noStop_stops _ _ _
  | succ n ih => exact startChain_noStop _ _ _ _ _ _ _ _ ih

theorem beginVar_noStop (o : OptCfg S R A) (accept : R → M S Bool) (numSteps stuckBuffer : ℤ) (fuel n length stuck i : ℕ) (b : BestAttr R A) (s : S) :
    (beginVar o accept numSteps stuckBuffer fuel n length stuck i b s).NoStop := by
  induction n generalizing s length with
  | zero => exact noStop_none
  | succ n ih =>
    unfold beginVar
    split
    · exact startChain_noStop _ _ _ _ _ _ _ _ (fun s => ih _ s)
    · exact noStop_stops _ _ _

theorem resetBest_ne (o : OptCfg S R A) (b : BestAttr R A) (s : S) {e : PyErr} {b1 : BestAttr R A} {s1 : S}
    (h : resetBest o b s = (.error e, b1, s1)) : e ≠ .stopIteration := by
  unfold resetBest at h
  split at h
  · cases h; exact genErr_ne _
  · cases h

variable [LE A] [DecidableLE A]

theorem process_ne (o : OptCfg S R A) (b : BestAttr R A) (part : R) (s : S) {e : PyErr} {b1 : BestAttr R A} {s1 : S}
    (h : process o b part s = (.error e, b1, s1)) : e ≠ .stopIteration := by
  unfold process at h
  split at h
  · cases h; exact genErr_ne _
  · split at h
    · cases h; decide
    · split at h <;> cases h

/-- **C101 (exceptions).** `next` on a generator of an optimizer never raises `StopIteration` as an error: when the score or the constructor of a chain
raises it, the caller sees `RuntimeError` and cannot take the failure for the end of the run.  This says nothing of a `StopIteration` raised inside
`next(chain)`, by a proposal, say: there it ends the `for part in chain` loop like the end of the chain (`advance`). -/
theorem C101_no_stop (o : OptCfg S R A) (fuel : ℕ) (g : OptGen S R) (b : BestAttr R A) (s : S) {e : PyErr} {g' : OptGen S R} {b' : BestAttr R A} {s' : S}
    (h : resume o fuel g b s = some (.raises e, g', b', s')) : e ≠ .stopIteration := by
  suffices hs : (resume o fuel g b s).NoStop from hs _ _ _ _ h
  clear h
  unfold resume
  split
  · exact noStop_stops _ _ _
  · split
    · exact noStop_raises (resetBest_ne _ _ _ ‹_›) _ _ _
    · exact beginBursts_noStop _ _ _ _ _ _ _
  · split
    · exact noStop_raises (genErr_ne _) _ _ _
    · split
      · exact noStop_raises (resetBest_ne _ _ _ ‹_›) _ _ _
      · exact advance_noStop _ _ _ _ _ _ _ (fun _ => noStop_stops _ _ _)
  · split
    · exact noStop_raises (resetBest_ne _ _ _ ‹_›) _ _ _
    · exact beginVar_noStop _ _ _ _ _ _ _ _ _ _ _
  · split
    · exact noStop_raises (process_ne _ _ _ _ ‹_›) _ _ _
    · exact advance_noStop _ _ _ _ _ _ _ (fun _ => beginBursts_noStop _ _ _ _ _ _ _)
  · split
    · exact noStop_raises (process_ne _ _ _ _ ‹_›) _ _ _
    · exact advance_noStop _ _ _ _ _ _ _ (fun _ => noStop_stops _ _ _)
  · split
    · exact noStop_raises (process_ne _ _ _ _ ‹_›) _ _ _
    · dsimp only
      split
      · exact beginVar_noStop _ _ _ _ _ _ _ _ _ _ _
      · exact advance_noStop _ _ _ _ _ _ _ (fun _ => beginVar_noStop _ _ _ _ _ _ _ _ _ _ _)

end

/-- the hypothesis of `C101_no_stop` can be met: a score that raises `StopIteration` -/
example : ∃ g' b' s', resume (S := Unit) (R := ℕ) (A := ℚ)
    ⟨fun r s => (.ok (r + 1), s), [], fun _ s => s, 0, fun _ s => (.error .stopIteration, s), true, fun _ s => (.ok (), s)⟩ 5 (.fresh (.bursts (fun _ s => (.ok true, s)) 2 1)) ⟨none, none⟩ () =
      some (.raises .runtimeError, g', b', s') := ⟨_, _, _, rfl⟩

/-- **C68 (no districts).** Without districts there is no score: the overall result is the quotient of two empty sums. -/
theorem C68_no_districts {P : Type} [DecidableEq P] (r : ElectionVal P) (p : String) (ps : List String) (h : r.regions = []) :
    partisanGini r (p :: ps) = .error .zeroDivision := by
  unfold partisanGini firstParty ElectionVal.percentOverall ElectionVal.counts
  rw [h]
  rfl

/-- the hypothesis of `C68_no_districts` can be met -/
example : partisanGini (⟨Dict.empty, [], Dict.empty⟩ : ElectionVal ℕ) ["D", "R"] = .error .zeroDivision := C68_no_districts _ _ _ rfl

end GC

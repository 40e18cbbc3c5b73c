import Verif.Lemmas.HeapStable

/-!
# County flags in the heap of partitions

The flag of a county in a cached value of `county_splits` was computed from the cached value of the parent.
-/

set_option linter.unusedSectionVars false
set_option autoImplicit false

namespace GC

variable {V P : Type} [LinearOrder V] [DecidableEq P]

/-- Updaters other than `countySplits f` never write its cache slots. -/
theorem compute_frames_key {F : Frame V P} {f : String} {rec : Key → ℕ → M (Caches V P) (Val V P)}
    (hr : ∀ k p, k ≠ .countySplits f → Frames (fun _ k' => k' ≠ .countySplits f) (rec k p)) (k : Key) (p : ℕ)
    (hk : k ≠ .countySplits f) : Frames (fun _ k' => k' ≠ .countySplits f) (compute F rec k p) := by
  unfold compute
  rcases hv : F.view p with _ | v
  · exact Frames.raise _
  simp only
  cases k <;> simp only
  case cutEdges =>
    split
    · exact Frames.pure _
    · exact Frames.bind (Frames.lift _) fun _ => Frames.bind (Frames.lift _) fun _ =>
        Frames.bind (hr _ _ (by simp)) fun _ => Frames.bind (Frames.lift _) fun _ => Frames.pure _
  case cutEdgesByPart =>
    split
    · exact Frames.bind (Frames.lift _) fun _ => Frames.pure _
    · refine Frames.bind (Frames.lift _) fun _ =>
        Frames.bind (hr _ _ (by simp)) fun _ => Frames.bind (Frames.lift _) fun _ => Frames.bind (Frames.foldlM _ ?_ _) fun _ => Frames.pure _
      intro b a _
      exact Frames.bind (Frames.touchEdges (by simp)) fun _ => Frames.pure _
  case tally =>
    split
    · exact Frames.pure _
    · exact Frames.bind (hr _ _ (by simp)) fun _ => Frames.bind (Frames.lift _) fun _ => Frames.bind (Frames.lift _) fun _ =>
        Frames.bind (Frames.lift _) fun _ => Frames.pure _
  case dataTally =>
    split
    · exact Frames.pure _
    · exact Frames.bind (hr _ _ (by simp)) fun _ => Frames.bind (Frames.lift _) fun _ => Frames.bind (Frames.lift _) fun _ =>
        Frames.bind (Frames.lift _) fun _ => Frames.pure _
  case boundaryNodes =>
    split
    · exact Frames.pure _
    · exact hr _ _ (by simp)
  case extBoundarySet =>
    split
    · exact Frames.bind (hr _ _ (by simp)) fun _ => Frames.bind (Frames.lift _) fun _ =>
        Frames.bind (Frames.lift _) fun _ => Frames.pure _
    · refine Frames.bind (hr _ _ (by simp)) fun _ => Frames.bind (Frames.lift _) fun _ => Frames.bind (Frames.lift _) fun _ =>
        Frames.bind (Frames.foldlM _ ?_ _) fun _ => Frames.pure _
      intro b a _
      exact Frames.bind (Frames.touchNodes (by simp)) fun _ => Frames.bind (hr _ _ (by simp)) fun _ =>
        Frames.bind (Frames.lift _) fun _ => Frames.pure _
  case extBoundary =>
    split
    · exact Frames.bind (hr _ _ (by simp)) fun _ => Frames.bind (Frames.lift _) fun _ =>
        Frames.bind (Frames.lift _) fun _ => Frames.pure _
    · refine Frames.bind (hr _ _ (by simp)) fun _ => Frames.bind (Frames.lift _) fun _ => Frames.bind (Frames.lift _) fun _ =>
        Frames.bind (Frames.foldlM _ ?_ _) fun _ => Frames.pure _
      intro b a _
      exact Frames.bind (Frames.touchRats (by simp)) fun _ => Frames.bind (hr _ _ (by simp)) fun _ =>
        Frames.bind (Frames.lift _) fun _ => Frames.pure _
  case intBoundary =>
    split
    · refine Frames.bind (Frames.foldlM _ ?_ _) fun _ => Frames.pure _
      intro b a _
      exact Frames.bind (hr _ _ (by simp)) fun _ => Frames.bind (Frames.lift _) fun _ =>
        Frames.bind (Frames.touchEdges (by simp)) fun _ => Frames.pure _
    · refine Frames.bind (Frames.lift _) fun _ =>
        Frames.bind (hr _ _ (by simp)) fun _ => Frames.bind (Frames.lift _) fun _ => Frames.bind (Frames.foldlM _ ?_ _) fun _ => Frames.pure _
      intro b a _
      exact Frames.bind (Frames.lift _) fun _ => Frames.pure _
  case perimeter =>
    refine Frames.bind (Frames.foldlM _ ?_ _) fun _ => Frames.pure _
    intro b a _
    exact Frames.bind (hr _ _ (by simp)) fun _ => Frames.bind (Frames.lift _) fun _ =>
      Frames.bind (Frames.touchRats (by simp)) fun _ =>
      Frames.bind (hr _ _ (by simp)) fun _ => Frames.bind (Frames.lift _) fun _ =>
      Frames.bind (Frames.lift _) fun _ => Frames.pure _
  case election =>
    refine Frames.bind ?_ fun prevs => Frames.bind (Frames.foldlM _ ?_ _) fun _ => Frames.bind (Frames.lift _) fun _ => Frames.pure _
    · split
      · exact Frames.pure _
      · exact Frames.bind (hr _ _ (by simp)) fun _ => Frames.bind (Frames.lift _) fun _ => Frames.pure _
    · intro b a _
      split
      · exact Frames.pure _
      · exact Frames.bind (Frames.lift _) fun _ => Frames.bind (Frames.lift _) fun _ => Frames.bind (Frames.lift _) fun _ => Frames.pure _
  case countySplits g =>
    have hne : Key.countySplits g ≠ .countySplits f := hk
    split
    · exact Frames.bind (Frames.lift _) fun _ => Frames.pure _
    · exact Frames.bind (hr _ _ hne) fun _ => Frames.bind (Frames.lift _) fun _ => Frames.bind (Frames.lift _) fun _ => Frames.pure _

theorem getitem_frames_key {F : Frame V P} {f : String} (limit : ℕ) (k : Key) (p : ℕ) (hk : k ≠ .countySplits f) :
    Frames (fun _ k' => k' ≠ .countySplits f) (getitem F limit k p) := by
  induction limit generalizing k p with
  | zero => exact Frames.raise _
  | succ n ih =>
    unfold getitem
    refine Frames.read_bind (fun c => ?_)
    split
    · exact Frames.pure _
    · split
      · exact Frames.bind (compute_frames_key (fun k p h => ih k p h) k p hk) fun x =>
          Frames.bind (Frames.cacheSet hk) fun _ => Frames.pure _
      · exact Frames.raise _

/-- A cached county value of a partition that still has its parent was computed from the parent's cached value. -/
def FlagInv (f : String) (F : Frame V P) (c : Caches V P) : Prop :=
  ∀ p v q d, F.view p = some v → F.truthyParent v = some q → (c p).get? (.countySplits f) = some (.counties d) →
    ∃ d', (c q).get? (.countySplits f) = some (.counties d') ∧ countySplitsStep v.assignment.mapping d' = .ok d

theorem CacheLe.counties {c c' : Caches V P} (h : CacheLe c c') {p : ℕ} {k : Key} {d : Dict String (CountyInfo V P)}
    (hd : (c p).get? k = some (.counties d)) : (c' p).get? k = some (.counties d) := by
  obtain ⟨y, h1, h2⟩ := h p k _ hd
  cases h2
  exact h1

theorem getitem_flag {F : Frame V P} (hF : FrameInv F) {f : String} (limit : ℕ) (p : ℕ) (c : Caches V P)
    (hc : FlagInv f F c) : FlagInv f F (getitem F limit (.countySplits f) p c).2 := by
  induction limit generalizing p c with
  | zero => exact hc
  | succ n ih =>
    unfold getitem
    change FlagInv f F (M.bind M.read _ c).2
    unfold M.bind M.read
    simp only
    rcases hk : (c p).get? (.countySplits f) with _ | x
    · simp only
      split
      · change FlagInv f F (M.bind _ _ c).2
        unfold M.bind
        -- the computation
        have hgrow := compute_grows (F := F) (getitem_grows hF n) (.countySplits f) p c
        have hfr := compute_frames hF (getitem_frames hF n) (.countySplits f) p c p (.countySplits f)
          (by unfold Below; omega)
        have key : ∀ r, compute F (getitem F n) (.countySplits f) p c = r → FlagInv f F r.2 ∧
            ∀ x, r.1 = .ok x → ∀ v, F.view p = some v →
              ∀ q, F.truthyParent v = some q → ∃ d' d, x = .counties d ∧
                (r.2 q).get? (.countySplits f) = some (.counties d') ∧
                countySplitsStep v.assignment.mapping d' = .ok d := by
          intro r hr
          unfold compute at hr
          rcases hv : F.view p with _ | v
          · rw [hv] at hr
            subst hr
            refine ⟨hc, ?_⟩
            intro x _ v hv'
            cases hv'
          rw [hv] at hr
          simp only at hr
          rcases ht : F.truthyParent v with _ | q
          · rw [ht] at hr
            simp only at hr
            change M.bind (M.lift _) _ c = r at hr
            unfold M.bind M.lift at hr
            refine ⟨?_, ?_⟩
            · rcases hh : countySplitsInit F.data.graph.nodes (F.data.region f) v.assignment.mapping with e | d <;>
                rw [hh] at hr <;> subst hr <;> exact hc
            · intro x _ v' hv' q hq
              cases hv'
              rw [ht] at hq
              cases hq
          · rw [ht] at hr
            simp only at hr
            have h1 := ih q c hc
            have h2 : ∀ x, (getitem F n (.countySplits f) q c).1 = .ok x →
                ((getitem F n (.countySplits f) q c).2 q).get? (.countySplits f) = some x := fun x hx => getitem_cached hx
            change M.bind _ _ c = r at hr
            unfold M.bind at hr
            revert h1 h2 hr
            rcases getitem F n (.countySplits f) q c with ⟨e | x, c1⟩
            · intro h1 _ hr
              subst hr
              refine ⟨h1, ?_⟩
              intro x hx
              cases hx
            · intro h1 h2 hr
              have h2 := h2 x rfl
              simp only at h1 h2 hr
              change M.bind (M.lift _) _ c1 = r at hr
              unfold M.bind M.lift at hr
              rcases hx : x.asCounties with e | prev
              · rw [hx] at hr
                subst hr
                refine ⟨h1, ?_⟩
                intro x hx
                cases hx
              · rw [hx] at hr
                simp only at hr
                have hxp : x = .counties prev := by
                  cases x <;> simp [Val.asCounties] at hx
                  rw [hx]
                change M.bind (M.lift _) _ c1 = r at hr
                unfold M.bind M.lift at hr
                rcases hs : countySplitsStep v.assignment.mapping prev with e | d
                · rw [hs] at hr
                  subst hr
                  refine ⟨h1, ?_⟩
                  intro x hx
                  cases hx
                · rw [hs] at hr
                  subst hr
                  refine ⟨h1, ?_⟩
                  intro y hy v' hv' q' hq'
                  cases hv'
                  rw [ht] at hq'
                  cases hq'
                  refine ⟨prev, d, (Except.ok.inj hy).symm, ?_, hs⟩
                  show (c1 q).get? _ = _
                  rw [h2, hxp]
        have key := key _ rfl
        revert key hgrow hfr
        rcases compute F (getitem F n) (.countySplits f) p c with ⟨e | x, c1⟩
        · intro _ _ key
          exact key.1
        · rintro hgrow hfr ⟨hc1, hx⟩
          simp only at hgrow hfr hc1 hx ⊢
          rw [hk] at hfr
          change FlagInv f F (fun i => if i = p then (c1 p).set (.countySplits f) x else c1 i)
          intro p' v q d hv ht hd
          have hqp' : q < p' := by
            obtain ⟨w, hw⟩ := hF.link p' v q hv (truthyParent_parent ht)
            exact hw.lt
          by_cases hp : p' = p
          · subst hp
            simp only [if_true, Dict.get?_set_self, Option.some.injEq] at hd
            subst hd
            obtain ⟨d', d2, e1, e2, e3⟩ := hx _ rfl v hv q ht
            cases e1
            refine ⟨d', ?_, e3⟩
            beta_reduce
            rw [if_neg (by omega)]
            exact e2
          · simp only [if_neg hp] at hd
            obtain ⟨d', e1, e2⟩ := hc1 p' v q d hv ht hd
            refine ⟨d', ?_, e2⟩
            by_cases hq : q = p
            · subst hq
              rw [hfr] at e1
              cases e1
            · simp only [if_neg hq]
              exact e1
      · exact hc
    · exact hc

theorem truthyParent_push {F : Frame V P} {a : Assignment V P} {parent : Option ℕ} {flips : Option (Dict V P)}
    {flows : Option (Dict P (Flow V))} {ef : Option (Dict P (Flow (V × V)))} (hF : FrameInv F) {p : ℕ} {v : View V P}
    (hv : F.view p = some v) : (F.push a parent flips flows ef).truthyParent v = F.truthyParent v := by
  unfold Frame.truthyParent
  rcases hp : v.parent with _ | q
  · rfl
  · obtain ⟨w, hw⟩ := hF.link p v q hv hp
    simp only
    rw [view_push_old hw.view, hw.view]

theorem FlagInv.push {f : String} {F : Frame V P} {c : Caches V P} {a : Assignment V P} {parent : Option ℕ}
    {flips : Option (Dict V P)} {flows : Option (Dict P (Flow V))} {ef : Option (Dict P (Flow (V × V)))}
    (hF : FrameInv F) (hci : CacheInv F c) (hc : FlagInv f F c) : FlagInv f (F.push a parent flips flows ef) c := by
  intro p v q d hv ht hd
  rcases view_push_inv hF hv with ⟨-, hv'⟩ | ⟨hp, -⟩
  · rw [truthyParent_push hF hv'] at ht
    exact hc p v q d hv' ht hd
  · obtain ⟨v', hv', -⟩ := hci _ _ _ hd
    have := Frame.lt_of_view hv'
    omega

theorem FlagInv.step {f : String} {H : Heap V P} (h : HeapInv H) (hc : FlagInv f H.frame H.caches) (op : Op V P) (hop : op.WF) :
    FlagInv f (H.step op).frame (H.step op).caches := by
  cases op with
  | create d =>
    unfold Heap.step
    simp only
    rcases hcr : H.frame.create d with e | F
    · exact hc
    · obtain ⟨a, rfl, -⟩ := create_ok hop hcr
      exact hc.push h.frame h.caches
  | flip p fl =>
    unfold Heap.step
    simp only
    rcases hcr : H.frame.flip p fl with e | F
    · exact hc
    · rcases hv : H.frame.view p with _ | v
      · exfalso
        unfold Frame.flip at hcr
        rw [hv] at hcr
        simp [bind, Except.bind] at hcr
      · obtain ⟨h1, h2⟩ := flip_frame h.frame hop hv
        rcases hb : v.assignment.flip fl with e | b
        · rw [h1 e hb] at hcr; cases hcr
        · obtain ⟨flows, ef, g1, -⟩ := h2 b hb
          rw [g1] at hcr
          cases hcr
          exact hc.push h.frame h.caches
  | lookup p k limit =>
    unfold Heap.step
    simp only
    by_cases hk : k = .countySplits f
    · subst hk
      exact getitem_flag h.frame limit p _ hc
    · intro p' v q d hv ht hd
      have hfr := getitem_frames_key (F := H.frame) limit k p hk H.caches
      rw [hfr p' _ (by simp)] at hd
      obtain ⟨d', e1, e2⟩ := hc p' v q d hv ht hd
      exact ⟨d', by rw [hfr q _ (by simp)]; exact e1, e2⟩
  | eraseParent r =>
    intro p v q d hv ht hd
    unfold Heap.step at hv ht hd
    simp only at hv ht hd
    have hlt := Frame.lt_of_view hv
    rw [length_eraseParent] at hlt
    obtain ⟨v', hv'⟩ := h.frame.exists_view hlt
    rw [view_eraseParent hv'] at hv
    have hv2 := (Option.some.inj hv).symm
    by_cases hp : p = r
    · rw [if_pos hp] at hv2
      rw [hv2] at ht
      simp [Frame.truthyParent] at ht
    · rw [if_neg hp] at hv2
      subst hv2
      have : H.frame.truthyParent v = some q := by
        have hpar := truthyParent_parent ht
        obtain ⟨w, hw⟩ := h.frame.link p v q hv' hpar
        unfold Frame.truthyParent at ht ⊢
        rw [hpar] at ht ⊢
        simp only at ht ⊢
        rw [view_eraseParent hw.view] at ht
        rw [hw.view]
        simp only at ht ⊢
        split at ht <;> exact ht
      exact hc p v q d hv' this hd

theorem FlagInv.run {f : String} {H : Heap V P} (h : HeapInv H) (hc : FlagInv f H.frame H.caches) {ops : List (Op V P)}
    (hops : ∀ op ∈ ops, op.WF) : FlagInv f (H.run ops).frame (H.run ops).caches := by
  induction ops generalizing H with
  | nil => exact hc
  | cons op ops ih =>
    have h1 := hops op List.mem_cons_self
    exact ih (h.step h1).1 (hc.step h op h1) (fun op hop => hops op (List.mem_cons_of_mem _ hop))

end GC

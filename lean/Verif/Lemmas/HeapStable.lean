import Verif.Lemmas.HeapRun

/-!
# Cached values are not overwritten
-/

set_option linter.unusedSectionVars false
set_option autoImplicit false

namespace GC

variable {V P : Type} [LinearOrder V] [DecidableEq P]

/-- `m` leaves every cache slot outside `S` alone. -/
def Frames (S : ℕ → Key → Prop) {α : Type} (m : M (Caches V P) α) : Prop :=
  ∀ c p k, ¬ S p k → ((m c).2 p).get? k = (c p).get? k

/-- every cached value survives, up to default entries -/
def CacheLe (c c' : Caches V P) : Prop :=
  ∀ p k x, (c p).get? k = some x → ∃ y, (c' p).get? k = some y ∧ Val.SameUpToDefaults x y

/-- `m` only extends the caches. -/
def Grows {α : Type} (m : M (Caches V P) α) : Prop := ∀ c, CacheLe c (m c).2

theorem CacheLe.refl (c : Caches V P) : CacheLe c c := fun _ _ x h => ⟨x, h, .refl x⟩

theorem CacheLe.trans {a b c : Caches V P} (h : CacheLe a b) (h' : CacheLe b c) : CacheLe a c := by
  intro p k x hx
  obtain ⟨y, hy, h1⟩ := h p k x hx
  obtain ⟨z, hz, h2⟩ := h' p k y hy
  exact ⟨z, hz, h1.trans h2⟩

section rules
variable {S : ℕ → Key → Prop} {α β : Type}

theorem Frames.pure (a : α) : Frames S (Pure.pure a : M (Caches V P) α) := fun _ _ _ _ => rfl
theorem Frames.lift (x : Py α) : Frames S (M.lift x : M (Caches V P) α) := fun _ _ _ _ => rfl
theorem Frames.raise (e : PyErr) : Frames S (M.raise e : M (Caches V P) α) := fun _ _ _ _ => rfl
theorem Frames.bind {m : M (Caches V P) α} {f : α → M (Caches V P) β} (h : Frames S m) (h' : ∀ a, Frames S (f a)) :
    Frames S (m >>= f) := by
  intro c p k hS
  show ((M.bind m f c).2 p).get? k = _
  unfold M.bind
  have := h c p k hS
  revert this
  rcases m c with ⟨_ | a, s'⟩
  · exact id
  · intro h1
    simp only
    rw [h' a s' p k hS, h1]
theorem Frames.read_bind {f : Caches V P → M (Caches V P) β} (h : ∀ c, Frames S (f c)) :
    Frames S (M.read >>= f) := fun c p k hS => h c c p k hS
theorem Frames.foldlM {A B : Type} {f : B → A → M (Caches V P) B} (l : List A) (h : ∀ b, ∀ a ∈ l, Frames S (f b a)) (b : B) :
    Frames S (l.foldlM f b) := by
  induction l generalizing b with
  | nil => exact Frames.pure b
  | cons a l ih =>
    rw [List.foldlM_cons]
    exact Frames.bind (h b a List.mem_cons_self) (fun b' => ih (fun b a ha => h b a (List.mem_cons_of_mem _ ha)) b')
theorem Frames.mono {S' : ℕ → Key → Prop} {m : M (Caches V P) α} (h : Frames S m) (hS : ∀ p k, S p k → S' p k) :
    Frames S' m := fun c p k h' => h c p k (fun hs => h' (hS p k hs))
theorem Frames.cacheSet {p : ℕ} {k : Key} {x : Val V P} (h : S p k) : Frames S (GC.cacheSet p k x) := by
  intro c p' k' hS
  show (((fun i => if i = p then (c p).set k x else c i) : Caches V P) p').get? k' = _
  simp only
  split
  · rename_i hp
    subst hp
    rw [Dict.get?_set_ne]
    rintro rfl
    exact hS h
  · rfl
theorem Frames.touchEdges {p : ℕ} {k : Key} {x : P} (h : S p k) : Frames S (GC.touchEdges (V := V) p k x) := by
  unfold GC.touchEdges
  refine Frames.read_bind (fun c => ?_)
  split
  · exact Frames.cacheSet h
  · exact Frames.pure _
theorem Frames.touchNodes {p : ℕ} {k : Key} {x : P} (h : S p k) : Frames S (GC.touchNodes (V := V) p k x) := by
  unfold GC.touchNodes
  refine Frames.read_bind (fun c => ?_)
  split
  · exact Frames.cacheSet h
  · exact Frames.pure _
theorem Frames.touchRats {p : ℕ} {k : Key} {x : P} (h : S p k) : Frames S (GC.touchRats (V := V) p k x) := by
  unfold GC.touchRats
  refine Frames.read_bind (fun c => ?_)
  split
  · exact Frames.cacheSet h
  · exact Frames.pure _

theorem Grows.pure (a : α) : Grows (Pure.pure a : M (Caches V P) α) := fun c => CacheLe.refl c
theorem Grows.lift (x : Py α) : Grows (M.lift x : M (Caches V P) α) := fun c => CacheLe.refl c
theorem Grows.raise (e : PyErr) : Grows (M.raise e : M (Caches V P) α) := fun c => CacheLe.refl c
theorem Grows.bind {m : M (Caches V P) α} {f : α → M (Caches V P) β} (h : Grows m) (h' : ∀ a, Grows (f a)) :
    Grows (m >>= f) := by
  intro c
  show CacheLe c (M.bind m f c).2
  unfold M.bind
  have := h c
  revert this
  rcases m c with ⟨_ | a, s'⟩
  · exact id
  · exact fun h1 => h1.trans (h' a s')
theorem Grows.foldlM {A B : Type} {f : B → A → M (Caches V P) B} (l : List A) (h : ∀ b, ∀ a ∈ l, Grows (f b a)) (b : B) :
    Grows (l.foldlM f b) := by
  induction l generalizing b with
  | nil => exact Grows.pure b
  | cons a l ih =>
    rw [List.foldlM_cons]
    exact Grows.bind (h b a List.mem_cons_self) (fun b' => ih (fun b a ha => h b a (List.mem_cons_of_mem _ ha)) b')
end rules

theorem CacheLe.set {c : Caches V P} {p : ℕ} {k : Key} {y : Val V P}
    (h : ∀ x, (c p).get? k = some x → Val.SameUpToDefaults x y) :
    CacheLe c (fun i => if i = p then (c p).set k y else c i) := by
  intro p' k' x hx
  simp only
  split
  · rename_i hp
    subst hp
    rw [Dict.get?_set]
    split
    · rename_i hk
      subst hk
      exact ⟨y, rfl, h x hx⟩
    · exact ⟨x, hx, .refl x⟩
  · exact ⟨x, hx, .refl x⟩

theorem extends_touch {B : Type} (d : Dict P B) (k : P) (dflt : B) : d.ExtendsBy (d.touch k dflt) dflt := by
  constructor
  · intro q z hz
    rw [Dict.get?_touch]
    split
    · rename_i h; subst h; rw [hz]; rfl
    · exact hz
  · intro q z hz hz'
    rw [Dict.get?_touch] at hz
    split at hz
    · rename_i h; subst h
      rw [hz'] at hz
      exact (Option.some.inj hz).symm
    · rw [hz'] at hz; cases hz

theorem Grows.touchEdges (p : ℕ) (k : Key) (x : P) : Grows (GC.touchEdges (V := V) p k x) := by
  intro c
  unfold GC.touchEdges
  show CacheLe c (M.bind M.read _ c).2
  unfold M.bind M.read
  simp only
  rcases hd : (c p).get? k with _ | val
  · exact CacheLe.refl c
  · cases val <;> first | exact CacheLe.refl c | skip
    refine CacheLe.set (fun z hz => ?_)
    rw [hd] at hz
    cases hz
    exact .edges (extends_touch _ _ _)

theorem Grows.touchNodes (p : ℕ) (k : Key) (x : P) : Grows (GC.touchNodes (V := V) p k x) := by
  intro c
  unfold GC.touchNodes
  show CacheLe c (M.bind M.read _ c).2
  unfold M.bind M.read
  simp only
  rcases hd : (c p).get? k with _ | val
  · exact CacheLe.refl c
  · cases val <;> first | exact CacheLe.refl c | skip
    refine CacheLe.set (fun z hz => ?_)
    rw [hd] at hz
    cases hz
    exact .nodes (extends_touch _ _ _)

theorem Grows.touchRats (p : ℕ) (k : Key) (x : P) : Grows (GC.touchRats (V := V) p k x) := by
  intro c
  unfold GC.touchRats
  show CacheLe c (M.bind M.read _ c).2
  unfold M.bind M.read
  simp only
  rcases hd : (c p).get? k with _ | val
  · exact CacheLe.refl c
  · cases val <;> first | exact CacheLe.refl c | skip
    refine CacheLe.set (fun z hz => ?_)
    rw [hd] at hz
    cases hz
    exact .rats (extends_touch _ _ _)

theorem truthyParent_parent {F : Frame V P} {v : View V P} {q : ℕ} (h : F.truthyParent v = some q) :
    v.parent = some q := by
  unfold Frame.truthyParent at h
  split at h
  · cases h
  · rename_i q' hq'
    split at h
    · split at h
      · cases h
      · cases h; exact hq'
    · cases h

/-- slots that computing `k` on `p` may write -/
def Below (p : ℕ) (k : Key) (p' : ℕ) (k' : Key) : Prop := p' < p ∨ (p' = p ∧ level k' < level k)

/-- slots that looking up `k` on `p` may write -/
def BelowEq (p : ℕ) (k : Key) (p' : ℕ) (k' : Key) : Prop := Below p k p' k' ∨ (p' = p ∧ k' = k)

theorem BelowEq.of_lt {p q : ℕ} (h : q < p) (k k' : Key) (p' : ℕ) (k'' : Key) (hb : BelowEq q k' p' k'') :
    Below p k p' k'' := by
  unfold BelowEq Below at *
  omega

theorem BelowEq.of_level {p : ℕ} {k k' : Key} (h : level k' < level k) (p' : ℕ) (k'' : Key)
    (hb : BelowEq p k' p' k'') : Below p k p' k'' := by
  unfold BelowEq Below at *
  rcases hb with (h1 | ⟨h1, h2⟩) | ⟨h1, rfl⟩
  · left; exact h1
  · right; exact ⟨h1, by omega⟩
  · right; exact ⟨h1, h⟩

theorem compute_frames {F : Frame V P} (hF : FrameInv F) {rec : Key → ℕ → M (Caches V P) (Val V P)}
    (hr : ∀ k p, Frames (BelowEq p k) (rec k p)) (k : Key) (p : ℕ) : Frames (Below p k) (compute F rec k p) := by
  unfold compute
  rcases hv : F.view p with _ | v
  · exact Frames.raise _
  have hpar : ∀ q, v.parent = some q → q < p := fun q hq => by
    obtain ⟨w, hw⟩ := hF.link p v q hv hq
    exact hw.lt
  have hrp : ∀ q k', v.parent = some q → Frames (Below p k) (rec k' q) := fun q k' hq =>
    (hr k' q).mono (BelowEq.of_lt (hpar q hq) k k')
  have hrt : ∀ q k', F.truthyParent v = some q → Frames (Below p k) (rec k' q) := fun q k' hq =>
    hrp q k' (truthyParent_parent hq)
  have hrl : ∀ k', level k' < level k → Frames (Below p k) (rec k' p) := fun k' h =>
    (hr k' p).mono (BelowEq.of_level h)
  simp only
  cases k <;> simp only
  case cutEdges =>
    split
    · exact Frames.pure _
    · rename_i q hq
      refine Frames.bind (Frames.lift _) fun _ => Frames.bind (Frames.lift _) fun _ =>
        Frames.bind (hrt q _ hq) fun _ => Frames.bind (Frames.lift _) fun _ => Frames.pure _
  case cutEdgesByPart =>
    split
    · exact Frames.bind (Frames.lift _) fun _ => Frames.pure _
    · rename_i q hq
      refine Frames.bind (Frames.lift _) fun _ =>
        Frames.bind (hrt q _ hq) fun _ => Frames.bind (Frames.lift _) fun _ => Frames.bind (Frames.foldlM _ ?_ _) fun _ => Frames.pure _
      intro b a _
      exact Frames.bind (Frames.touchEdges (Or.inl (hpar q (truthyParent_parent hq)))) fun _ => Frames.pure _
  case tally =>
    split
    · exact Frames.pure _
    · rename_i q hq
      exact Frames.bind (hrp q _ hq) fun _ => Frames.bind (Frames.lift _) fun _ => Frames.bind (Frames.lift _) fun _ =>
        Frames.bind (Frames.lift _) fun _ => Frames.pure _
  case dataTally =>
    split
    · exact Frames.pure _
    · rename_i q hq
      exact Frames.bind (hrp q _ hq) fun _ => Frames.bind (Frames.lift _) fun _ => Frames.bind (Frames.lift _) fun _ =>
        Frames.bind (Frames.lift _) fun _ => Frames.pure _
  case boundaryNodes =>
    split
    · exact Frames.pure _
    · rename_i q hq
      exact hrt q _ hq
  case extBoundarySet =>
    split
    · exact Frames.bind (hrl _ (by simp [level])) fun _ => Frames.bind (Frames.lift _) fun _ =>
        Frames.bind (Frames.lift _) fun _ => Frames.pure _
    · rename_i q hq
      refine Frames.bind (hrp q _ hq) fun _ => Frames.bind (Frames.lift _) fun _ => Frames.bind (Frames.lift _) fun _ =>
        Frames.bind (Frames.foldlM _ ?_ _) fun _ => Frames.pure _
      intro b a _
      exact Frames.bind (Frames.touchNodes (Or.inl (hpar q hq))) fun _ => Frames.bind (hrl _ (by simp [level])) fun _ =>
        Frames.bind (Frames.lift _) fun _ => Frames.pure _
  case extBoundary =>
    split
    · exact Frames.bind (hrl _ (by simp [level])) fun _ => Frames.bind (Frames.lift _) fun _ =>
        Frames.bind (Frames.lift _) fun _ => Frames.pure _
    · rename_i q hq
      refine Frames.bind (hrp q _ hq) fun _ => Frames.bind (Frames.lift _) fun _ => Frames.bind (Frames.lift _) fun _ =>
        Frames.bind (Frames.foldlM _ ?_ _) fun _ => Frames.pure _
      intro b a _
      exact Frames.bind (Frames.touchRats (Or.inl (hpar q hq))) fun _ => Frames.bind (hrl _ (by simp [level])) fun _ =>
        Frames.bind (Frames.lift _) fun _ => Frames.pure _
  case intBoundary =>
    split
    · refine Frames.bind (Frames.foldlM _ ?_ _) fun _ => Frames.pure _
      intro b a _
      exact Frames.bind (hrl _ (by simp [level])) fun _ => Frames.bind (Frames.lift _) fun _ =>
        Frames.bind (Frames.touchEdges (Or.inr ⟨rfl, by simp [level]⟩)) fun _ => Frames.pure _
    · rename_i q hq
      refine Frames.bind (Frames.lift _) fun _ =>
        Frames.bind (hrt q _ hq) fun _ => Frames.bind (Frames.lift _) fun _ => Frames.bind (Frames.foldlM _ ?_ _) fun _ => Frames.pure _
      intro b a _
      exact Frames.bind (Frames.lift _) fun _ => Frames.pure _
  case perimeter =>
    refine Frames.bind (Frames.foldlM _ ?_ _) fun _ => Frames.pure _
    intro b a _
    exact Frames.bind (hrl _ (by simp [level])) fun _ => Frames.bind (Frames.lift _) fun _ =>
      Frames.bind (Frames.touchRats (Or.inr ⟨rfl, by simp [level]⟩)) fun _ =>
      Frames.bind (hrl _ (by simp [level])) fun _ => Frames.bind (Frames.lift _) fun _ =>
      Frames.bind (Frames.lift _) fun _ => Frames.pure _
  case election =>
    refine Frames.bind ?_ fun prevs => Frames.bind (Frames.foldlM _ ?_ _) fun _ => Frames.bind (Frames.lift _) fun _ => Frames.pure _
    · split
      · exact Frames.pure _
      · rename_i q hq
        exact Frames.bind (hrp q _ hq) fun _ => Frames.bind (Frames.lift _) fun _ => Frames.pure _
    · intro b a _
      split
      · exact Frames.pure _
      · exact Frames.bind (Frames.lift _) fun _ => Frames.bind (Frames.lift _) fun _ => Frames.bind (Frames.lift _) fun _ => Frames.pure _
  case countySplits =>
    split
    · exact Frames.bind (Frames.lift _) fun _ => Frames.pure _
    · rename_i q hq
      exact Frames.bind (hrt q _ hq) fun _ => Frames.bind (Frames.lift _) fun _ => Frames.bind (Frames.lift _) fun _ => Frames.pure _

theorem compute_grows {F : Frame V P} {rec : Key → ℕ → M (Caches V P) (Val V P)}
    (hr : ∀ k p, Grows (rec k p)) (k : Key) (p : ℕ) : Grows (compute F rec k p) := by
  unfold compute
  rcases hv : F.view p with _ | v
  · exact Grows.raise _
  simp only
  cases k <;> simp only
  case cutEdges =>
    split
    · exact Grows.pure _
    · exact Grows.bind (Grows.lift _) fun _ => Grows.bind (Grows.lift _) fun _ =>
        Grows.bind (hr _ _) fun _ => Grows.bind (Grows.lift _) fun _ => Grows.pure _
  case cutEdgesByPart =>
    split
    · exact Grows.bind (Grows.lift _) fun _ => Grows.pure _
    · refine Grows.bind (Grows.lift _) fun _ =>
        Grows.bind (hr _ _) fun _ => Grows.bind (Grows.lift _) fun _ => Grows.bind (Grows.foldlM _ ?_ _) fun _ => Grows.pure _
      intro b a _
      exact Grows.bind (Grows.touchEdges _ _ _) fun _ => Grows.pure _
  case tally =>
    split
    · exact Grows.pure _
    · exact Grows.bind (hr _ _) fun _ => Grows.bind (Grows.lift _) fun _ => Grows.bind (Grows.lift _) fun _ =>
        Grows.bind (Grows.lift _) fun _ => Grows.pure _
  case dataTally =>
    split
    · exact Grows.pure _
    · exact Grows.bind (hr _ _) fun _ => Grows.bind (Grows.lift _) fun _ => Grows.bind (Grows.lift _) fun _ =>
        Grows.bind (Grows.lift _) fun _ => Grows.pure _
  case boundaryNodes =>
    split
    · exact Grows.pure _
    · exact hr _ _
  case extBoundarySet =>
    split
    · exact Grows.bind (hr _ _) fun _ => Grows.bind (Grows.lift _) fun _ =>
        Grows.bind (Grows.lift _) fun _ => Grows.pure _
    · refine Grows.bind (hr _ _) fun _ => Grows.bind (Grows.lift _) fun _ => Grows.bind (Grows.lift _) fun _ =>
        Grows.bind (Grows.foldlM _ ?_ _) fun _ => Grows.pure _
      intro b a _
      exact Grows.bind (Grows.touchNodes _ _ _) fun _ => Grows.bind (hr _ _) fun _ =>
        Grows.bind (Grows.lift _) fun _ => Grows.pure _
  case extBoundary =>
    split
    · exact Grows.bind (hr _ _) fun _ => Grows.bind (Grows.lift _) fun _ =>
        Grows.bind (Grows.lift _) fun _ => Grows.pure _
    · refine Grows.bind (hr _ _) fun _ => Grows.bind (Grows.lift _) fun _ => Grows.bind (Grows.lift _) fun _ =>
        Grows.bind (Grows.foldlM _ ?_ _) fun _ => Grows.pure _
      intro b a _
      exact Grows.bind (Grows.touchRats _ _ _) fun _ => Grows.bind (hr _ _) fun _ =>
        Grows.bind (Grows.lift _) fun _ => Grows.pure _
  case intBoundary =>
    split
    · refine Grows.bind (Grows.foldlM _ ?_ _) fun _ => Grows.pure _
      intro b a _
      exact Grows.bind (hr _ _) fun _ => Grows.bind (Grows.lift _) fun _ =>
        Grows.bind (Grows.touchEdges _ _ _) fun _ => Grows.pure _
    · refine Grows.bind (Grows.lift _) fun _ =>
        Grows.bind (hr _ _) fun _ => Grows.bind (Grows.lift _) fun _ => Grows.bind (Grows.foldlM _ ?_ _) fun _ => Grows.pure _
      intro b a _
      exact Grows.bind (Grows.lift _) fun _ => Grows.pure _
  case perimeter =>
    refine Grows.bind (Grows.foldlM _ ?_ _) fun _ => Grows.pure _
    intro b a _
    exact Grows.bind (hr _ _) fun _ => Grows.bind (Grows.lift _) fun _ =>
      Grows.bind (Grows.touchRats _ _ _) fun _ =>
      Grows.bind (hr _ _) fun _ => Grows.bind (Grows.lift _) fun _ =>
      Grows.bind (Grows.lift _) fun _ => Grows.pure _
  case election =>
    refine Grows.bind ?_ fun prevs => Grows.bind (Grows.foldlM _ ?_ _) fun _ => Grows.bind (Grows.lift _) fun _ => Grows.pure _
    · split
      · exact Grows.pure _
      · exact Grows.bind (hr _ _) fun _ => Grows.bind (Grows.lift _) fun _ => Grows.pure _
    · intro b a _
      split
      · exact Grows.pure _
      · exact Grows.bind (Grows.lift _) fun _ => Grows.bind (Grows.lift _) fun _ => Grows.bind (Grows.lift _) fun _ => Grows.pure _
  case countySplits =>
    split
    · exact Grows.bind (Grows.lift _) fun _ => Grows.pure _
    · exact Grows.bind (hr _ _) fun _ => Grows.bind (Grows.lift _) fun _ => Grows.bind (Grows.lift _) fun _ => Grows.pure _

theorem getitem_frames {F : Frame V P} (hF : FrameInv F) (limit : ℕ) (k : Key) (p : ℕ) :
    Frames (BelowEq p k) (getitem F limit k p) := by
  induction limit generalizing k p with
  | zero => exact Frames.raise _
  | succ n ih =>
    unfold getitem
    refine Frames.read_bind (fun c => ?_)
    split
    · exact Frames.pure _
    · split
      · exact Frames.bind ((compute_frames hF ih k p).mono fun p' k' h => Or.inl h) fun x =>
          Frames.bind (Frames.cacheSet (Or.inr ⟨rfl, rfl⟩)) fun _ => Frames.pure _
      · exact Frames.raise _

theorem getitem_grows {F : Frame V P} (hF : FrameInv F) (limit : ℕ) (k : Key) (p : ℕ) :
    Grows (getitem F limit k p) := by
  induction limit generalizing k p with
  | zero => exact Grows.raise _
  | succ n ih =>
    intro c
    unfold getitem
    show CacheLe c (M.bind M.read _ c).2
    unfold M.bind M.read
    simp only
    rcases hk : (c p).get? k with _ | x
    · simp only
      split
      · have h1 := compute_grows (F := F) ih k p c
        have h2 := compute_frames hF (getitem_frames hF n) k p c p k (by unfold Below; omega)
        show CacheLe c (M.bind _ _ c).2
        unfold M.bind
        revert h1 h2
        rcases compute F (getitem F n) k p c with ⟨_ | a, c'⟩
        · exact fun h _ => h
        · intro h1 h2
          refine h1.trans (CacheLe.set (c := c') ?_)
          intro x hx
          simp only at h2
          rw [h2, hk] at hx
          cases hx
      · exact CacheLe.refl c
    · exact CacheLe.refl c

/-- after a successful lookup the value is cached -/
theorem getitem_cached {F : Frame V P} {limit : ℕ} {k : Key} {p : ℕ} {c : Caches V P} {x : Val V P}
    (h : (getitem F limit k p c).1 = .ok x) : ((getitem F limit k p c).2 p).get? k = some x := by
  cases limit with
  | zero => cases h
  | succ n =>
    unfold getitem at h ⊢
    change (M.bind M.read _ c).1 = _ at h
    change ((M.bind M.read _ c).2 p).get? k = _
    unfold M.bind M.read at h ⊢
    simp only at h ⊢
    rcases hk : (c p).get? k with _ | y
    · rw [hk] at h
      simp only at h ⊢
      split
      · rename_i hu
        rw [if_pos hu] at h
        change (M.bind _ _ c).1 = _ at h
        change ((M.bind _ _ c).2 p).get? k = _
        unfold M.bind at h ⊢
        revert h
        rcases compute F (getitem F n) k p c with ⟨_ | a, c'⟩
        · intro h; cases h
        · intro h
          have ha : a = x := Except.ok.inj h
          subst ha
          show ((if p = p then (c' p).set k a else c' p) : Dict Key (Val V P)).get? k = _
          rw [if_pos rfl, Dict.get?_set_self]
      · rename_i hu
        rw [if_neg hu] at h
        cases h
    · rw [hk] at h
      simp only at h ⊢
      cases h
      exact hk

theorem getitem_of_cached {F : Frame V P} {limit : ℕ} {k : Key} {p : ℕ} {c : Caches V P} {x : Val V P}
    (h : (c p).get? k = some x) : getitem F (limit + 1) k p c = (.ok x, c) := by
  unfold getitem
  show M.bind M.read _ c = _
  unfold M.bind M.read
  simp only [h]
  rfl

theorem step_grows {H : Heap V P} (h : HeapInv H) (op : Op V P) : CacheLe H.caches (H.step op).caches := by
  cases op with
  | create d => unfold Heap.step; simp only; split <;> exact CacheLe.refl _
  | flip p f => unfold Heap.step; simp only; split <;> exact CacheLe.refl _
  | lookup p k limit => exact getitem_grows h.frame limit k p _
  | eraseParent p => exact CacheLe.refl _

theorem run_grows {H : Heap V P} (h : HeapInv H) {ops : List (Op V P)} (hops : ∀ op ∈ ops, op.WF) :
    CacheLe H.caches (H.run ops).caches := by
  induction ops generalizing H with
  | nil => exact CacheLe.refl _
  | cons op ops ih =>
    exact (step_grows h op).trans (ih (h.step (hops op List.mem_cons_self)).1 (fun op hop => hops op (List.mem_cons_of_mem _ hop)))

end GC

import Verif.Model.Utm
import Verif.Lemmas.Election
import Mathlib.Tactic.Linarith
import Mathlib.Tactic.NormNum

/-!
# UTM zones (C54, C71)
-/

set_option linter.unusedSectionVars false
set_option autoImplicit false

namespace GC

/-- Norway: zone 32V is widened -/
def Norway (latitude longitude : ℚ) : Prop := 56 ≤ latitude ∧ latitude < 64 ∧ 3 ≤ longitude ∧ longitude < 12

/-- Svalbard: zones 31X, 33X, 35X, 37X are widened -/
def Svalbard (latitude longitude : ℚ) : Prop := 72 ≤ latitude ∧ latitude ≤ 84 ∧ 0 ≤ longitude ∧ longitude < 42

theorem pyInt_nonneg {x : ℚ} (h : 0 ≤ x) : 0 ≤ pyInt x ∧ (pyInt x : ℚ) ≤ x ∧ x < pyInt x + 1 := by
  unfold pyInt
  rw [if_pos h]
  exact ⟨Int.floor_nonneg.2 h, Int.floor_le x, Int.lt_floor_add_one x⟩

theorem zone_regular {latitude longitude : ℚ} (h0 : -180 ≤ longitude) (hN : ¬ Norway latitude longitude) (hS : ¬ Svalbard latitude longitude) :
    latlonToZoneNumber latitude longitude = pyInt ((longitude + 180) / 6) + 1 := by
  unfold latlonToZoneNumber
  rw [if_neg (fun h => hN ⟨h.1.1, h.1.2, h.2.1, h.2.2⟩)]
  simp only
  unfold Svalbard at hS
  split_ifs with h1 h2 h3 h4 h5 <;> first | rfl | (exfalso; exact hS ⟨h1.1.1, h1.1.2, h1.2, by linarith⟩)

/-- **C54** For longitudes in `[-180, 180)` and every latitude the zone number is between 1 and 60 and its central meridian is at most 6 degrees away;
outside of Norway and Svalbard the longitude is in the zone's strip of 6 degrees around the central meridian. -/
theorem C54_zone_number (latitude longitude : ℚ) (h0 : -180 ≤ longitude) (h1 : longitude < 180) :
    1 ≤ latlonToZoneNumber latitude longitude ∧ latlonToZoneNumber latitude longitude ≤ 60 ∧
    |longitude - zoneNumberToCentralLongitude (latlonToZoneNumber latitude longitude)| ≤ 6 ∧
    (¬ Norway latitude longitude → ¬ Svalbard latitude longitude →
      (zoneNumberToCentralLongitude (latlonToZoneNumber latitude longitude) : ℚ) - 3 ≤ longitude ∧
      longitude < zoneNumberToCentralLongitude (latlonToZoneNumber latitude longitude) + 3) := by
  by_cases hN : Norway latitude longitude
  · have : latlonToZoneNumber latitude longitude = 32 := by
      unfold latlonToZoneNumber
      rw [if_pos ⟨⟨hN.1, hN.2.1⟩, hN.2.2.1, hN.2.2.2⟩]
    rw [this]
    refine ⟨by norm_num, by norm_num, ?_, fun h => absurd hN h⟩
    have hc : zoneNumberToCentralLongitude 32 = 9 := by decide
    rw [hc, abs_le]
    obtain ⟨-, -, h3, h12⟩ := hN
    push_cast
    constructor <;> linarith
  · by_cases hS : Svalbard latitude longitude
    · obtain ⟨hl, hl', g0, g1⟩ := id hS
      have hn : ¬ ((56 ≤ latitude ∧ latitude < 64) ∧ (3 ≤ longitude ∧ longitude < 12)) := fun h => by linarith [h.1.2]
      have hs : (72 ≤ latitude ∧ latitude ≤ 84) ∧ 0 ≤ longitude := ⟨⟨hl, hl'⟩, g0⟩
      have key : ∀ (z c : ℤ), latlonToZoneNumber latitude longitude = z → zoneNumberToCentralLongitude z = c → 1 ≤ z → z ≤ 60 →
          (c : ℚ) - 6 ≤ longitude → longitude ≤ c + 6 →
          1 ≤ latlonToZoneNumber latitude longitude ∧ latlonToZoneNumber latitude longitude ≤ 60 ∧
          |longitude - zoneNumberToCentralLongitude (latlonToZoneNumber latitude longitude)| ≤ 6 ∧
          (¬ Norway latitude longitude → ¬ Svalbard latitude longitude →
            (zoneNumberToCentralLongitude (latlonToZoneNumber latitude longitude) : ℚ) - 3 ≤ longitude ∧
            longitude < zoneNumberToCentralLongitude (latlonToZoneNumber latitude longitude) + 3) := by
        intro z c hz hc z1 z2 h3 h4
        rw [hz, hc]
        refine ⟨z1, z2, ?_, fun _ h => absurd hS h⟩
        rw [abs_le]
        constructor <;> linarith
      by_cases a9 : longitude < 9
      · refine key 31 3 ?_ (by decide) (by norm_num) (by norm_num) (by push_cast; linarith) (by push_cast; linarith)
        unfold latlonToZoneNumber; rw [if_neg hn]; simp only; rw [if_pos hs, if_pos a9]
      by_cases a21 : longitude < 21
      · refine key 33 15 ?_ (by decide) (by norm_num) (by norm_num) (by push_cast; linarith) (by push_cast; linarith)
        unfold latlonToZoneNumber; rw [if_neg hn]; simp only; rw [if_pos hs, if_neg a9, if_pos a21]
      by_cases a33 : longitude < 33
      · refine key 35 27 ?_ (by decide) (by norm_num) (by norm_num) (by push_cast; linarith) (by push_cast; linarith)
        unfold latlonToZoneNumber; rw [if_neg hn]; simp only; rw [if_pos hs, if_neg a9, if_neg a21, if_pos a33]
      · refine key 37 39 ?_ (by decide) (by norm_num) (by norm_num) (by push_cast; linarith) (by push_cast; linarith)
        unfold latlonToZoneNumber; rw [if_neg hn]; simp only; rw [if_pos hs, if_neg a9, if_neg a21, if_neg a33, if_pos g1]
    · rw [zone_regular h0 hN hS]
      obtain ⟨k0, k1, k2⟩ := pyInt_nonneg (x := (longitude + 180) / 6) (by linarith)
      generalize pyInt ((longitude + 180) / 6) = k at *
      have hk : k < 60 := by
        have : (k : ℚ) < 60 := by linarith
        exact_mod_cast this
      unfold zoneNumberToCentralLongitude
      have hcen : (((k + 1 - 1) * 6 - 180 + 3 : ℤ) : ℚ) = 6 * (k : ℚ) - 177 := by push_cast; ring
      rw [hcen]
      refine ⟨by omega, by omega, ?_, fun _ _ => ⟨by linarith, by linarith⟩⟩
      rw [abs_le]
      constructor <;> linarith

/-! ### Letters -/

theorem letters_table : ∀ k < 21, ∃ c, zoneLetters[k]? = some c ∧ ('N' ≤ c ↔ 10 ≤ k) ∧ (c = 'X' ↔ 19 ≤ k) ∧
    (∀ zone : ℤ, 1 ≤ zone → zone ≤ 60 → checkValidZone zone (some c) = .ok ()) := by
  have h : ∀ k < 21, ∃ c ∈ zoneLetters, zoneLetters[k]? = some c ∧ ('N' ≤ c ↔ 10 ≤ k) ∧ (c = 'X' ↔ 19 ≤ k) ∧
      ¬ (¬ ('C' ≤ c ∧ c ≤ 'X') ∨ c = 'I' ∨ c = 'O') := by decide
  intro k hk
  obtain ⟨c, -, h1, h2, h3, h4⟩ := h k hk
  refine ⟨c, h1, h2, h3, fun zone z1 z2 => ?_⟩
  unfold checkValidZone
  rw [if_neg (not_not.2 ⟨z1, z2⟩)]
  simp only
  rw [if_neg h4]

/-- **C54** `latitude_to_zone_letter` never raises; it returns a letter exactly for latitudes in `[-80, 84]`.  The letter is one that `check_valid_zone`
accepts, it is at least N exactly in the northern hemisphere, and it is X exactly from 72 degrees. -/
theorem C54_zone_letter (latitude : ℚ) :
    ((-80 ≤ latitude ∧ latitude ≤ 84) → ∃ c, latitudeToZoneLetter latitude = .ok (some c) ∧ ('N' ≤ c ↔ 0 ≤ latitude) ∧
      (c = 'X' ↔ 72 ≤ latitude) ∧ ∀ zone : ℤ, 1 ≤ zone → zone ≤ 60 → checkValidZone zone (some c) = .ok ()) ∧
    (¬ (-80 ≤ latitude ∧ latitude ≤ 84) → latitudeToZoneLetter latitude = .ok none) := by
  constructor
  · intro h
    obtain ⟨k0, k1, k2⟩ := pyInt_nonneg (x := latitude + 80) (by linarith [h.1])
    unfold latitudeToZoneLetter
    rw [if_pos h]
    generalize pyInt (latitude + 80) = k at *
    obtain ⟨n, rfl⟩ := Int.eq_ofNat_of_zero_le k0
    have k1' : (n : ℚ) ≤ latitude + 80 := by exact_mod_cast k1
    have k2' : latitude + 80 < (n : ℚ) + 1 := by exact_mod_cast k2
    have hn : n ≤ 164 := by
      have : (n : ℚ) ≤ 164 := by linarith [h.2]
      exact_mod_cast this
    have hsh : ((n : ℤ)).toNat >>> 3 = n / 8 := by
      rw [Int.toNat_natCast, Nat.shiftRight_eq_div_pow]
    rw [hsh]
    obtain ⟨c, h1, h2, h3, h4⟩ := letters_table (n / 8) (by omega)
    rw [h1]
    refine ⟨c, rfl, h2.trans ?_, h3.trans ?_, h4⟩
    · constructor
      · intro hk
        have : (80 : ℚ) ≤ n := by exact_mod_cast (by omega : 80 ≤ n)
        linarith
      · intro hk
        have : (79 : ℚ) < n := by linarith
        have : 79 < n := by exact_mod_cast this
        omega
    · constructor
      · intro hk
        have : (152 : ℚ) ≤ n := by exact_mod_cast (by omega : 152 ≤ n)
        linarith
      · intro hk
        have : (151 : ℚ) < n := by linarith
        have : 151 < n := by exact_mod_cast this
        omega
  · intro h
    unfold latitudeToZoneLetter
    rw [if_neg h]

/-- **C54** `from_latlon` raises exactly for coordinates out of range; for others with longitude below 180 its zone is accepted by `check_valid_zone`
(so by `to_latlon`). -/
theorem C54_from_latlon (latitude longitude : ℚ) :
    ((-80 ≤ latitude ∧ latitude ≤ 84) ∧ (-180 ≤ longitude ∧ longitude ≤ 180) →
      ∃ letter, fromLatlonZone latitude longitude = .ok (latlonToZoneNumber latitude longitude, some letter) ∧
        (longitude < 180 → checkValidZone (latlonToZoneNumber latitude longitude) (some letter) = .ok ())) ∧
    (¬ ((-80 ≤ latitude ∧ latitude ≤ 84) ∧ (-180 ≤ longitude ∧ longitude ≤ 180)) → fromLatlonZone latitude longitude = .error .valueError) := by
  constructor
  · rintro ⟨h1, h2⟩
    obtain ⟨c, hc, -, -, hv⟩ := (C54_zone_letter latitude).1 h1
    refine ⟨c, ?_, fun hlt => ?_⟩
    · unfold fromLatlonZone
      rw [if_neg (not_not.2 h1), if_neg (not_not.2 h2), hc]
      rfl
    · have := C54_zone_number latitude longitude h2.1 hlt
      exact hv _ this.1 this.2.1
  · intro h
    unfold fromLatlonZone
    by_cases h1 : -80 ≤ latitude ∧ latitude ≤ 84
    · rw [if_neg (not_not.2 h1), if_pos (fun h2 => h ⟨h1, h2⟩)]
    · rw [if_pos h1]

/-- **C54** (violation) At longitude 180, which `from_latlon` accepts, the zone number is 61 at every latitude; there is no such zone, and
`check_valid_zone` rejects it. -/
theorem C54_dateline_violation (latitude : ℚ) (h0 : -80 ≤ latitude) (h1 : latitude ≤ 84) :
    utmOfPoint latitude 180 = .ok 61 ∧ ∀ letter, checkValidZone 61 letter = .error .valueError := by
  constructor
  · obtain ⟨c, hc, -⟩ := (C54_from_latlon latitude 180).1 ⟨⟨h0, h1⟩, by norm_num, by norm_num⟩
    unfold utmOfPoint
    rw [hc]
    have : latlonToZoneNumber latitude 180 = 61 := by
      rw [zone_regular (by norm_num) (fun h => by have := h.2.2.2; norm_num at this) (fun h => by have := h.2.2.2; norm_num at this)]
      have : pyInt ((180 + 180) / 6) = 60 := by
        unfold pyInt
        norm_num
      rw [this]
      rfl
    rw [this]
    rfl
  · intro letter
    rfl

/-- Boston is in zone 19T, Bergen in zone 32V (a regular grid would give 31), Longyearbyen in 33X -/
example : fromLatlonZone (42 + 36/100) (-(71 + 6/100)) = .ok (19, some 'T') ∧ fromLatlonZone (60 + 39/100) (5 + 32/100) = .ok (32, some 'V') ∧
    fromLatlonZone (78 + 22/100) (15 + 65/100) = .ok (33, some 'X') ∧ fromLatlonZone 85 0 = .error .valueError := by decide +kernel

/-! ### The most common zone -/

section
variable {A : Type} [DecidableEq A]

theorem zoneCounter_fold (l : List A) (d : Dict A ℕ) (hd : d.WF) (x : A) :
    (l.foldl (fun d x => d.set x ((d.get? x).getD 0 + 1)) d).WF ∧
    ((l.foldl (fun d x => d.set x ((d.get? x).getD 0 + 1)) d).get? x).getD 0 = (d.get? x).getD 0 + l.count x ∧
    (x ∈ (l.foldl (fun d x => d.set x ((d.get? x).getD 0 + 1)) d).keys ↔ x ∈ d.keys ∨ x ∈ l) := by
  induction l generalizing d with
  | nil => simp [hd]
  | cons a l ih =>
    obtain ⟨h1, h2, h3⟩ := ih (d.set a ((d.get? a).getD 0 + 1)) (hd.set ..)
    refine ⟨h1, h2.trans ?_, h3.trans ?_⟩
    · rw [Dict.get?_set, List.count_cons]
      by_cases h : x = a
      · subst h
        simp
        omega
      · have h' : ¬ a = x := fun e => h e.symm
        simp [h, h']
    · rw [Dict.mem_keys_set, List.mem_cons]
      tauto

theorem zoneCounter_spec (l : List A) : (zoneCounter l).WF ∧ ∀ x n, (x, n) ∈ (zoneCounter l).entries ↔ x ∈ l ∧ n = l.count x := by
  have hwf : (zoneCounter l).WF := by
    cases l with
    | nil => exact Dict.wf_empty
    | cons a l => exact (zoneCounter_fold (a :: l) .empty Dict.wf_empty a).1
  refine ⟨hwf, fun x n => ?_⟩
  obtain ⟨-, h2, h3⟩ := zoneCounter_fold l .empty Dict.wf_empty x
  have h2' : ((zoneCounter l).get? x).getD 0 = l.count x := by simpa [zoneCounter, Dict.get?, Dict.empty] using h2
  have h3' : x ∈ (zoneCounter l).keys ↔ x ∈ l := by simpa [zoneCounter, Dict.keys, Dict.empty] using h3
  rw [Dict.mem_entries_iff hwf, ← h3', Dict.mem_keys_iff]
  cases hg : (zoneCounter l).get? x with
  | none => simp
  | some v =>
    rw [hg] at h2'
    simp at h2'
    rw [← h2']
    constructor
    · intro h
      exact ⟨⟨v, rfl⟩, (Option.some.inj h).symm⟩
    · rintro ⟨-, rfl⟩
      rfl

theorem foldl_best (l : List (A × ℕ)) (e : A × ℕ) :
    l.foldl (fun best e => if best.2 < e.2 then e else best) e ∈ e :: l ∧
    ∀ e' ∈ e :: l, e'.2 ≤ (l.foldl (fun best e => if best.2 < e.2 then e else best) e).2 := by
  induction l generalizing e with
  | nil => simp
  | cons a l ih =>
    obtain ⟨h1, h2⟩ := ih (if e.2 < a.2 then a else e)
    rw [List.foldl_cons]
    refine ⟨?_, fun e' he' => ?_⟩
    · rcases List.mem_cons.1 h1 with h | h
      · rw [h]
        split_ifs <;> simp
      · exact List.mem_cons_of_mem _ (List.mem_cons_of_mem _ h)
    · have hb := h2 _ List.mem_cons_self
      rcases List.mem_cons.1 he' with rfl | he'
      · refine le_trans ?_ hb
        split_ifs <;> omega
      · rcases List.mem_cons.1 he' with rfl | he'
        · refine le_trans ?_ hb
          split_ifs <;> omega
        · exact h2 _ (List.mem_cons_of_mem _ he')

/-- `Counter(l).most_common(1)[0][0]` is an element of `l` that occurs most often; it raises `IndexError` exactly for an empty list -/
theorem mostCommon_spec (l : List A) :
    (l = [] → mostCommon (zoneCounter l) = .error .indexError) ∧
    (l ≠ [] → ∃ x ∈ l, mostCommon (zoneCounter l) = .ok x ∧ ∀ y, l.count y ≤ l.count x) := by
  obtain ⟨-, hent⟩ := zoneCounter_spec l
  constructor
  · rintro rfl
    rfl
  · intro hl
    unfold mostCommon
    cases he : (zoneCounter l).entries with
    | nil =>
      obtain ⟨a, ha⟩ := List.exists_mem_of_ne_nil l hl
      have := (hent a _).2 ⟨ha, rfl⟩
      rw [he] at this
      exact absurd this List.not_mem_nil
    | cons e rest =>
      obtain ⟨h1, h2⟩ := foldl_best rest e
      rw [← he] at h1 h2
      have hx := (hent _ _).1 h1
      refine ⟨_, hx.1, rfl, fun y => ?_⟩
      rw [← hx.2]
      by_cases hy : y ∈ l
      · exact h2 _ ((hent y _).2 ⟨hy, rfl⟩)
      · rw [List.count_eq_zero_of_not_mem hy]
        exact Nat.zero_le _

end

/-- the centroids of the geometries whose zone is `z` -/
def inZone (centroids : List (ℚ × ℚ)) (z : ℤ) : ℕ := centroids.countP (fun c => latlonToZoneNumber c.1 c.2 = z)

/-- **C71** When all centroids are in the range of the projection, `identify_utm_zone` returns a zone that contains at least one centroid and at least as
many as every other zone; with longitudes below 180 it is a zone in 1..60. -/
theorem C71_identify_zone (centroids : List (ℚ × ℚ)) (hne : centroids ≠ [])
    (hrange : ∀ c ∈ centroids, (-80 ≤ c.1 ∧ c.1 ≤ 84) ∧ (-180 ≤ c.2 ∧ c.2 ≤ 180)) :
    ∃ zone, identifyUtmZone centroids = .ok zone ∧ 0 < inZone centroids zone ∧ (∀ other, inZone centroids other ≤ inZone centroids zone) ∧
      ((∀ c ∈ centroids, c.2 < 180) → 1 ≤ zone ∧ zone ≤ 60) := by
  have hm : centroids.mapM (fun c => utmOfPoint c.1 c.2) = .ok (centroids.map (fun c => latlonToZoneNumber c.1 c.2)) := by
    refine Py.mapM_ok (fun c hc => ?_)
    obtain ⟨letter, hl, -⟩ := (C54_from_latlon c.1 c.2).1 (hrange c hc)
    unfold utmOfPoint
    rw [hl]
    rfl
  have hcount : ∀ z, (centroids.map (fun c => latlonToZoneNumber c.1 c.2)).count z = inZone centroids z := by
    intro z
    rw [List.count, List.countP_map, inZone]
    refine List.countP_congr (fun c _ => ?_)
    simp
  obtain ⟨zone, hz, ho, hmax⟩ := (mostCommon_spec (centroids.map (fun c => latlonToZoneNumber c.1 c.2))).2 (by simpa using hne)
  refine ⟨zone, ?_, ?_, fun other => ?_, fun hlt => ?_⟩
  · unfold identifyUtmZone
    rw [hm]
    exact ho
  · rw [← hcount]
    exact List.count_pos_iff.2 hz
  · rw [← hcount, ← hcount]
    exact hmax other
  · obtain ⟨c, hc, rfl⟩ := List.mem_map.1 hz
    have := C54_zone_number c.1 c.2 (hrange c hc).2.1 (hlt c hc)
    exact ⟨this.1, this.2.1⟩

/-- **C71** `identify_utm_zone` raises `IndexError` for an empty GeoDataFrame and `OutOfRangeError` when a centroid is out of range -/
theorem C71_identify_zone_errors :
    identifyUtmZone [] = .error .indexError ∧
    ∀ centroids : List (ℚ × ℚ), (∃ c ∈ centroids, ¬ ((-80 ≤ c.1 ∧ c.1 ≤ 84) ∧ (-180 ≤ c.2 ∧ c.2 ≤ 180))) →
      identifyUtmZone centroids = .error .valueError := by
  refine ⟨rfl, fun centroids h => ?_⟩
  have hm : centroids.mapM (fun c => utmOfPoint c.1 c.2) = .error .valueError := by
    induction centroids with
    | nil => obtain ⟨c, hc, -⟩ := h; exact absurd hc List.not_mem_nil
    | cons a l ih =>
      rw [List.mapM_cons]
      by_cases ha : (-80 ≤ a.1 ∧ a.1 ≤ 84) ∧ (-180 ≤ a.2 ∧ a.2 ≤ 180)
      · obtain ⟨letter, hl, -⟩ := (C54_from_latlon a.1 a.2).1 ha
        have : utmOfPoint a.1 a.2 = .ok (latlonToZoneNumber a.1 a.2) := by
          unfold utmOfPoint
          rw [hl]
          rfl
        rw [this]
        obtain ⟨c, hc, hcr⟩ := h
        rcases List.mem_cons.1 hc with rfl | hc
        · exact absurd ha hcr
        · rw [ih ⟨c, hc, hcr⟩]
          rfl
      · have : utmOfPoint a.1 a.2 = .error .valueError := by
          unfold utmOfPoint
          rw [(C54_from_latlon a.1 a.2).2 ha]
          rfl
        rw [this]
        rfl
  unfold identifyUtmZone
  rw [hm]
  rfl

example : identifyUtmZone [(42, -71), (42, -73), (41, -72 + 1/2), (42, -70)] = .ok 19 ∧
    inZone [(42, -71), (42, -73), (41, -72 + 1/2), (42, -70)] 19 = 3 := by decide +kernel

end GC

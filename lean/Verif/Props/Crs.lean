import Verif.Model.Crs
import Verif.Props.Geo

/-!
# The coordinate reference system that a graph records (C116)
-/

set_option linter.unusedSectionVars false
set_option autoImplicit false

namespace GC

variable {V C : Type} [LinearOrder V] [DecidableEq C]

section
variable (utm : ℤ → C) (f : GeoFrame V C) (df : DataFrame V AttrVal) (adjacency : String) (cols : Option (List String)) (reproject ignoreErrors : Bool) (override : Option C)

/-- The numbers on the graph are those of the polygons `geo`: areas, boundary flags, exterior perimeters and shared perimeters. -/
def MeasuredOn (geo : Geometries V) (g : GeoGraph V) : Prop := buildGeoGraph geo df adjacency cols = .ok g

variable {utm f df adjacency cols reproject ignoreErrors override}

theorem reprojected_ok {f' : GeoFrame V C} (h : f.reprojected utm = .ok f') : ∃ c z, f.crs = some c ∧ identifyUtmZone f.centroids = .ok z ∧ f'.geo = f.inCrs (utm z) ∧ f'.crs = some (utm z) := by
  unfold GeoFrame.reprojected at h
  rcases hc : f.crs with _ | c
  · rw [hc] at h
    cases h
  · rw [hc] at h
    dsimp only at h
    rcases hz : identifyUtmZone f.centroids with e | z
    · rw [hz] at h
      cases h
    · rw [hz] at h
      change f.toCrs (utm z) = .ok f' at h
      unfold GeoFrame.toCrs at h
      rw [hc] at h
      cases h
      exact ⟨c, z, rfl, rfl, rfl, rfl⟩

theorem check_ok {f' : GeoFrame V C} (h : f.check utm reproject ignoreErrors = .ok f') : (reproject = false ∧ f' = f) ∨ (reproject = true ∧ f.reprojected utm = .ok f') := by
  unfold GeoFrame.check at h
  split_ifs at h with h1 h2
  · right
    refine ⟨h2, ?_⟩
    rcases hr : f.reprojected utm with e | g
    · rw [hr] at h
      cases h
    · rw [hr] at h
      change (if _ then _ else _) = _ at h
      split_ifs at h
      cases h
      rfl
  · left
    cases h
    exact ⟨by simpa using h2, rfl⟩

theorem overrideCrs_ok {crs r : Option C} (h : overrideCrs crs override = .ok r) : (∀ c, crs = some c → r = some c) ∧ (∀ c, override = some c → r = some c) ∧ (override = none → r = crs) := by
  unfold overrideCrs setCrs at h
  rcases override with _ | c
  · cases h
    exact ⟨fun c h => h, fun c h => (by cases h), fun _ => rfl⟩
  · dsimp only at h
    split_ifs at h with h1
    cases h
    refine ⟨fun c' hc' => ?_, fun c' hc' => hc', fun h => (by cases h)⟩
    rcases h1 with h1 | h1
    · rw [h1] at hc'
      cases hc'
    · rw [← h1, hc']

theorem fromGeodataframeCrs_ok {g : GeoGraph V} {crs after : Option C} (h : fromGeodataframeCrs utm f df adjacency cols reproject ignoreErrors override = (.ok (g, crs), after)) :
    ∃ f', f.check utm reproject ignoreErrors = .ok f' ∧ buildGeoGraph f'.geo df adjacency cols = .ok g ∧ overrideCrs f'.crs override = .ok crs ∧ after = if reproject then f.crs else crs := by
  unfold fromGeodataframeCrs at h
  rcases h1 : f.check utm reproject ignoreErrors with e | f'
  · rw [h1] at h
    cases h
  · rw [h1] at h
    dsimp only at h
    rcases h2 : buildGeoGraph f'.geo df adjacency cols with e | g'
    · rw [h2] at h
      cases h
    · rw [h2] at h
      dsimp only at h
      rcases h3 : overrideCrs f'.crs override with e | c
      · rw [h3] at h
        cases h
      · rw [h3] at h
        cases h
        exact ⟨f', rfl, h2, h3, rfl⟩

variable (utm f df adjacency cols reproject ignoreErrors override)

/-- **C116** (what is recorded) When `from_geodataframe` returns a graph: with `reproject=True` its numbers are those of the polygons in the UTM zone in which most of them lie, and this is
the coordinate reference system that the graph records; otherwise its numbers are those of the polygons with the coordinates of the table, and the graph records the coordinate reference
system of the table, or `crs_override` if the table has none.  In both cases, if `crs_override` is given, it is the recorded one. -/
theorem C116_recorded (g : GeoGraph V) (crs after : Option C) (h : fromGeodataframeCrs utm f df adjacency cols reproject ignoreErrors override = (.ok (g, crs), after)) :
    (reproject = true → ∃ c z, f.crs = some c ∧ identifyUtmZone f.centroids = .ok z ∧ MeasuredOn df adjacency cols (f.inCrs (utm z)) g ∧ crs = some (utm z)) ∧
    (reproject = false → MeasuredOn df adjacency cols f.geo g ∧ (∀ c, f.crs = some c → crs = some c) ∧ (f.crs = none → crs = override)) ∧
    ∀ c, override = some c → crs = some c := by
  obtain ⟨f', h1, h2, h3, h4⟩ := fromGeodataframeCrs_ok h
  obtain ⟨k1, k2, k3⟩ := overrideCrs_ok h3
  refine ⟨fun hr => ?_, fun hr => ?_, k2⟩
  · rcases check_ok h1 with ⟨hr', -⟩ | ⟨-, h5⟩
    · rw [hr] at hr'
      cases hr'
    · obtain ⟨c, z, e1, e2, e3, e4⟩ := reprojected_ok h5
      refine ⟨c, z, e1, e2, ?_, k1 _ e4⟩
      rw [e3] at h2
      exact h2
  · rcases check_ok h1 with ⟨-, rfl⟩ | ⟨hr', -⟩
    · refine ⟨h2, k1, fun hn => ?_⟩
      rcases override with _ | c
      · rw [k3 rfl, hn]
      · exact k2 c rfl
    · rw [hr] at hr'
      cases hr'

/-- **C116** (areas) In particular the areas on the graph are areas in square units of the recorded coordinate reference system: those of the polygons in the UTM zone, or those of
the polygons as the table has them. -/
theorem C116_areas (g : GeoGraph V) (crs after : Option C) (h : fromGeodataframeCrs utm f df adjacency cols reproject ignoreErrors override = (.ok (g, crs), after))
    (hcol : "area" ∉ df.columns) :
    (reproject = true → ∃ c, crs = some c ∧ ((f.inCrs c).Sound → ∀ v ∈ (f.inCrs c).ids, (g.attrs v).get? "area" = some (.num ((f.inCrs c).area v)))) ∧
    (reproject = false → f.geo.Sound → ∀ v ∈ f.geo.ids, (g.attrs v).get? "area" = some (.num (f.geo.area v))) := by
  have key : ∀ geo : Geometries V, MeasuredOn df adjacency cols geo g → geo.Sound → ∀ v ∈ geo.ids, (g.attrs v).get? "area" = some (.num (geo.area v)) := by
    intro geo hm hsound v hv
    have hm' : fromGeodataframe geo geo df adjacency cols false true = .ok g := by
      rw [fromGeodataframe_eq, if_neg (by simp)]
      exact hm
    obtain ⟨adj, ha, -, -, -, k3⟩ := fromGeodataframe_ok hm'
    obtain ⟨-, g2, -⟩ := geoGraph_spec hsound ha
    obtain ⟨-, u2, -⟩ := (geoAttrs_spec (graphOf adj) (sharedOf adj) geo g2 v).1 hv
    rw [k3 _ _ (.inr (.inr hcol))]
    exact u2
  obtain ⟨h1, h2, -⟩ := C116_recorded utm f df adjacency cols reproject ignoreErrors override g crs after h
  refine ⟨fun hr => ?_, fun hr => key _ (h2 hr).1⟩
  obtain ⟨c, z, -, -, hm, hcrs⟩ := h1 hr
  exact ⟨utm z, hcrs, key _ hm⟩

/-- **C116** (when it works) `from_geodataframe` returns a graph exactly if the polygons pass the checks, the graph can be made of them, a table that is to be reprojected has a coordinate
reference system and a zone, and `crs_override`, if given, is the coordinate reference system that the polygons have by then or they have none. -/
theorem C116_returns_iff :
    (∃ g crs after, fromGeodataframeCrs utm f df adjacency cols reproject ignoreErrors override = (.ok (g, crs), after)) ↔
      ∃ f', f.check utm reproject ignoreErrors = .ok f' ∧ (∃ g, buildGeoGraph f'.geo df adjacency cols = .ok g) ∧ ∀ c, override = some c → f'.crs = none ∨ f'.crs = some c := by
  constructor
  · rintro ⟨g, crs, after, h⟩
    obtain ⟨f', h1, h2, h3, -⟩ := fromGeodataframeCrs_ok h
    refine ⟨f', h1, ⟨g, h2⟩, ?_⟩
    rintro c rfl
    unfold overrideCrs setCrs at h3
    dsimp only at h3
    split_ifs at h3 with h4
    exact h4
  · rintro ⟨f', h1, ⟨g, h2⟩, h3⟩
    unfold fromGeodataframeCrs
    rw [h1]
    dsimp only
    rw [h2]
    dsimp only
    rcases override with _ | c
    · exact ⟨_, _, _, rfl⟩
    · unfold overrideCrs setCrs
      dsimp only
      rw [if_pos (h3 c rfl)]
      exact ⟨_, _, _, rfl⟩

/-- **C116** (it agrees with the model without coordinate reference systems) For a table with a coordinate reference system and without `crs_override`, the graph is the one of
`fromGeodataframe` (C86, C87) for the polygons in the UTM zone. -/
theorem C116_same_graph (c : C) (hc : f.crs = some c) (z : ℤ) (hz : identifyUtmZone f.centroids = .ok z) :
    (fromGeodataframeCrs utm f df adjacency cols reproject ignoreErrors none).1.map (·.1) = fromGeodataframe f.geo (f.inCrs (utm z)) df adjacency cols reproject ignoreErrors := by
  have hrep : f.reprojected utm = .ok { f with geo := f.inCrs (utm z), crs := some (utm z) } := by
    unfold GeoFrame.reprojected
    rw [hc]
    dsimp only
    rw [hz]
    show f.toCrs (utm z) = _
    unfold GeoFrame.toCrs
    rw [hc]
  have hcheck : (f.check utm reproject ignoreErrors).map (·.geo) = checkGeometries f.geo (f.inCrs (utm z)) reproject ignoreErrors := by
    unfold GeoFrame.check checkGeometries
    rw [hrep]
    split_ifs with h1 h2
    · rfl
    · show ((if _ then _ else _ : Py (GeoFrame V C))).map _ = _
      rename_i h3
      dsimp only
      rw [if_pos h3]
      rfl
    · show ((if _ then _ else _ : Py (GeoFrame V C))).map _ = _
      rename_i h3
      dsimp only
      rw [if_neg h3]
      rfl
    · rfl
  unfold fromGeodataframe fromGeodataframeCrs
  rw [← hcheck]
  rcases f.check utm reproject ignoreErrors with e | f'
  · rfl
  · show _ = buildGeoGraph f'.geo df adjacency cols
    dsimp only
    rcases buildGeoGraph f'.geo df adjacency cols with e | g <;> rfl

/-- **C116** (the argument) `from_geodataframe` leaves the coordinate reference system of its argument alone, unless `crs_override` is given for a table without one. -/
theorem C116_argument_partial (h : reproject = true ∨ override = none ∨ f.crs ≠ none) :
    (fromGeodataframeCrs utm f df adjacency cols reproject ignoreErrors override).2 = f.crs := by
  rcases hr : fromGeodataframeCrs utm f df adjacency cols reproject ignoreErrors override with ⟨e | ⟨g, crs⟩, after⟩
  · unfold fromGeodataframeCrs at hr
    repeat' split at hr
    all_goals first | (cases hr; rfl) | (cases hr)
  · obtain ⟨f', h1, -, h3, h4⟩ := fromGeodataframeCrs_ok hr
    obtain ⟨k1, k2, k3⟩ := overrideCrs_ok h3
    dsimp only
    rw [h4]
    cases reproject with
    | true => rfl
    | false =>
      rcases check_ok h1 with ⟨-, rfl⟩ | ⟨hr', -⟩
      · rcases h with h | h | h
        · cases h
        · exact k3 h
        · obtain ⟨c, hc⟩ := Option.ne_none_iff_exists'.1 h
          rw [hc]
          exact k1 c hc
      · cases hr'

/-- **C116** (the argument, violation) With `crs_override` for a table without a coordinate reference system and without reprojection, the table of the caller has a coordinate reference
system afterwards. -/
theorem C116_argument_violation (c : C) (hc : f.crs = none) (g : GeoGraph V) (crs after : Option C)
    (h : fromGeodataframeCrs utm f df adjacency cols false ignoreErrors (some c) = (.ok (g, crs), after)) : after ≠ f.crs := by
  obtain ⟨f', h1, -, h3, h4⟩ := fromGeodataframeCrs_ok h
  rw [h4, (overrideCrs_ok h3).2.1 c rfl, hc]
  simp

/-- **C116** (override, violation) `crs_override` never overrides: if the table has another coordinate reference system, no graph is returned. -/
theorem C116_override_violation (c c' : C) (hc : f.crs = some c) (hne : c' ≠ c) (g : GeoGraph V) (crs after : Option C) :
    fromGeodataframeCrs utm f df adjacency cols false ignoreErrors (some c') ≠ (.ok (g, crs), after) := by
  intro h
  obtain ⟨-, h2, h3⟩ := C116_recorded utm f df adjacency cols false ignoreErrors (some c') g crs after h
  have e1 := (h2 rfl).2.1 c hc
  have e2 := h3 c' rfl
  rw [e1] at e2
  exact hne (Option.some.inj e2).symm

/-- **C116** (`from_file`) Without reprojection `from_file` returns what `from_geodataframe` returns for the table in the file, if this has a coordinate reference system. -/
theorem C116_from_file_partial (c : C) (hc : f.crs = some c) :
    fromFile utm f df adjacency cols false ignoreErrors = (fromGeodataframeCrs utm f df adjacency cols false ignoreErrors none).1 := by
  unfold fromFile
  rcases h : fromGeodataframeCrs utm f df adjacency cols false ignoreErrors none with ⟨e | ⟨g, crs⟩, after⟩
  · rfl
  · have e := C116_argument_partial utm f df adjacency cols false ignoreErrors none (.inr (.inl rfl))
    obtain ⟨-, h2, -⟩ := C116_recorded utm f df adjacency cols false ignoreErrors none g crs after h
    rw [h] at e
    dsimp only at e ⊢
    rw [e, hc, (h2 rfl).2.1 c hc]

/-- **C116** (`from_file`, violation) With `reproject=True`, `from_file` records the coordinate reference system of the file, although the numbers on the graph are those of the polygons in
the UTM zone. -/
theorem C116_from_file_violation (c : C) (hc : f.crs = some c) (g : GeoGraph V) (crs : Option C) (h : fromFile utm f df adjacency cols true ignoreErrors = .ok (g, crs)) :
    crs = some c ∧ ∃ z, identifyUtmZone f.centroids = .ok z ∧ MeasuredOn df adjacency cols (f.inCrs (utm z)) g := by
  unfold fromFile at h
  rcases h' : fromGeodataframeCrs utm f df adjacency cols true ignoreErrors none with ⟨e | ⟨g', crs'⟩, after⟩
  · rw [h'] at h
    cases h
  · have e := C116_argument_partial utm f df adjacency cols true ignoreErrors none (.inr (.inl rfl))
    obtain ⟨h1, -, -⟩ := C116_recorded utm f df adjacency cols true ignoreErrors none g' crs' after h'
    rw [h'] at h e
    dsimp only at e h
    rw [e, hc] at h
    cases h
    obtain ⟨-, z, -, hz, hm, -⟩ := h1 rfl
    exact ⟨rfl, z, hz, hm⟩

/-- **C116** (`from_file` without a coordinate reference system, violation) `from_geodataframe` warns and goes on without a coordinate reference system; `from_file` then raises, so it returns
no graph for such a file. -/
theorem C116_from_file_missing_violation (hc : f.crs = none) (g : GeoGraph V) (crs : Option C) : fromFile utm f df adjacency cols reproject ignoreErrors ≠ .ok (g, crs) := by
  intro h
  unfold fromFile at h
  rcases h' : fromGeodataframeCrs utm f df adjacency cols reproject ignoreErrors none with ⟨e | ⟨g', crs'⟩, after⟩
  · rw [h'] at h
    cases h
  · have e := C116_argument_partial utm f df adjacency cols reproject ignoreErrors none (.inr (.inl rfl))
    rw [h'] at h e
    dsimp only at e h
    rw [e, hc] at h
    cases h

end

/-! ### Examples: the four squares of `exGeo`, in degrees and in metres -/

/-- the squares in a zone, with larger areas -/
def exMetres : Geometries (Fin 4) := { exGeo with area := fun _ => 100 }

/-- the table, with or without a coordinate reference system -/
def exFrame (crs : Option String) : GeoFrame (Fin 4) String := ⟨exGeo, crs, fun c => if c = "degrees" then exGeo else exMetres, [(40, -100), (40, -99), (41, -100), (41, -97)]⟩

/-- the names of the zones -/
def exUtm (z : ℤ) : String := if z = 14 then "zone 14" else "another zone"

/-- the zone is 14 and the areas are 100; `from_file` records "degrees" all the same -/
example : ((fromGeodataframeCrs exUtm (exFrame (some "degrees")) (exGeoTable []) "rook" none true false none).1.map (fun r => ((r.1.attrs 0).get? "area", r.2))) =
      .ok (some (.num 100), some "zone 14") ∧
    ((fromFile exUtm (exFrame (some "degrees")) (exGeoTable []) "rook" none true false).map (fun r => ((r.1.attrs 0).get? "area", r.2))) = .ok (some (.num 100), some "degrees") := by
  decide +kernel

/-- without a coordinate reference system: `crs_override` changes the table of the caller; `from_file` raises -/
example : ((fromGeodataframeCrs exUtm (exFrame none) (exGeoTable []) "rook" none false false (some "degrees")).1.map (·.2)) = .ok (some "degrees") ∧
    (fromGeodataframeCrs exUtm (exFrame none) (exGeoTable []) "rook" none false false (some "degrees")).2 = some "degrees" ∧
    ((fromGeodataframeCrs exUtm (exFrame none) (exGeoTable []) "rook" none false false none).1.map (·.2)) = .ok none ∧
    ((fromFile exUtm (exFrame none) (exGeoTable []) "rook" none false false).map (·.2)) = .error .attributeError := by
  decide +kernel

/-- another coordinate reference system than that of the table is refused -/
example : ((fromGeodataframeCrs exUtm (exFrame (some "degrees")) (exGeoTable []) "rook" none false false (some "zone 14")).1.map (·.2)) = .error .valueError := by
  decide +kernel

end GC

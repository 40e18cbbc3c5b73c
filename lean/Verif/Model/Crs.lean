import Verif.Model.Geo
import Verif.Model.Utm

/-!
# Coordinate reference systems: `reprojected`, `Graph.from_geodataframe` and `Graph.from_file` (gerrychain/graph/geo.py, gerrychain/graph/graph.py)

What shapely and pyproj compute is an input: the polygons as the table has them, and as they are in every other coordinate reference system.
-/

set_option linter.unusedSectionVars false
set_option autoImplicit false

namespace GC

variable {V C : Type} [LinearOrder V] [DecidableEq C]

/-- a `GeoDataFrame` as far as `from_geodataframe` asks for coordinates (graph/graph.py:225-285, graph/geo.py:23-90) -/
structure GeoFrame (V C : Type) where
  /-- the polygons with the coordinates of the table -/
  geo : Geometries V
  /-- `df.crs` -/
  crs : Option C
  /-- the polygons of `df.to_crs(c)` -/
  inCrs : C → Geometries V
  /-- the centroids (latitude, longitude) of the polygons in degrees -/
  centroids : List (ℚ × ℚ)

/-- `df.to_crs(c)` (graph/geo.py:28, 86): geopandas raises `ValueError` if the table has no coordinate reference system -/
def GeoFrame.toCrs (f : GeoFrame V C) (c : C) : Py (GeoFrame V C) :=
  match f.crs with
  | none => .error .valueError
  | some _ => .ok { f with geo := f.inCrs c, crs := some c }

/-- `reprojected(df)` (graph/geo.py:71-90).  `utm z` is `"+proj=utm +zone=z +ellps=WGS84 …"`; the first `to_crs`, in `identify_utm_zone` (line 28), raises
`ValueError` without a coordinate reference system. -/
def GeoFrame.reprojected (utm : ℤ → C) (f : GeoFrame V C) : Py (GeoFrame V C) :=
  match f.crs with
  | none => .error .valueError
  | some _ => do
    let z ← identifyUtmZone f.centroids
    f.toCrs (utm z)

/-- the first part of `Graph.from_geodataframe` (graph/graph.py:225-251) -/
def GeoFrame.check (utm : ℤ → C) (f : GeoFrame V C) (reproject ignoreErrors : Bool) : Py (GeoFrame V C) :=
  if !ignoreErrors && decide (0 < f.geo.invalid.length) then .error .geometryError
  else if reproject then do
    let g ← f.reprojected utm
    if ignoreErrors && decide (0 < g.geo.invalid.length) then .error .geometryError else .ok g
  else .ok f

/-- `df.set_crs(c, inplace=True)` (graph/graph.py:272): geopandas raises `ValueError` if the table has another coordinate reference system -/
def setCrs (crs : Option C) (c : C) : Py (Option C) := if crs = none ∨ crs = some c then .ok (some c) else .error .valueError

/-- the end of `Graph.from_geodataframe` (graph/graph.py:271-283): `crs_override`, and what becomes `graph.graph["crs"]` -/
def overrideCrs (crs : Option C) (override : Option C) : Py (Option C) :=
  match override with
  | none => .ok crs
  | some c => setCrs crs c

/-- `Graph.from_geodataframe(dataframe, adjacency, cols_to_add, reproject, ignore_errors, crs_override)` (graph/graph.py:177-285): the graph with
`graph.graph["crs"]`, and `dataframe.crs` afterwards, which is changed in place if `dataframe` itself was used. -/
def fromGeodataframeCrs (utm : ℤ → C) (f : GeoFrame V C) (df : DataFrame V AttrVal) (adjacency : String) (cols : Option (List String))
    (reproject ignoreErrors : Bool) (override : Option C) : Py (GeoGraph V × Option C) × Option C :=
  match f.check utm reproject ignoreErrors with
  | .error e => (.error e, f.crs)
  | .ok f' => match buildGeoGraph f'.geo df adjacency cols with
    | .error e => (.error e, f.crs)
    | .ok g => match overrideCrs f'.crs override with
      | .error e => (.error e, f.crs)
      | .ok crs => (.ok (g, crs), if reproject then f.crs else crs)

/-- `Graph.from_file(filename, adjacency, cols_to_add, reproject, ignore_errors)` (graph/graph.py:122-175), when `gp.read_file` returns the given table.
`df.crs.to_json()` raises `AttributeError` if `df.crs` is `None`. -/
def fromFile (utm : ℤ → C) (f : GeoFrame V C) (df : DataFrame V AttrVal) (adjacency : String) (cols : Option (List String))
    (reproject ignoreErrors : Bool) : Py (GeoGraph V × Option C) :=
  match fromGeodataframeCrs utm f df adjacency cols reproject ignoreErrors none with
  | (.error e, _) => .error e
  | (.ok (g, _), after) => match after with
    | none => .error .attributeError
    | some c => .ok (g, some c)

end GC

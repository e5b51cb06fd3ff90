import Verif.Num
import Mathlib.Analysis.SpecialFunctions.Trigonometric.Basic
import Mathlib.Analysis.SpecialFunctions.Complex.Arg

/-!
# Model of `src/solarspatialtools/spatial.py`

Exact arithmetic over ℝ.  `pyproj.Proj` is a parameter (`Projector`).
-/

namespace SST.Spatial
open SST

/-! ## Map projection -/

/-- The external `pyproj.Proj(proj='utm', zone, south, ...)` object: for a zone
and hemisphere flag, `fwd` maps (lon, lat) to (E, N) and `inv` is the call with
`inverse=True`, mapping (E, N) to (lon, lat).  Simplification: total (pyproj rejects
zones outside 1..60 with an exception). -/
structure Projector where
  fwd : ℤ → Bool → ℝ → ℝ → ℝ × ℝ
  inv : ℤ → Bool → ℝ → ℝ → ℝ × ℝ

/-- `_calc_zone`, spatial.py:7-23. -/
noncomputable def calcZone (lon : ℝ) : ℤ := min (pyInt ((lon - (-180)) / 6 + 1)) 60

/-- Scalar branch of `latlon2utm`, spatial.py:66-75. Result (E, N, zone). -/
noncomputable def latlon2utm1 (P : Projector) (lat lon : ℝ) (zone : Option ℤ) : ℝ × ℝ × ℤ :=
  let z := zone.getD (calcZone lon)   -- `if zone is None: zone = _calc_zone(lon)`
  let south := decide (lat < 0)
  let en := P.fwd z south lon lat
  (en.1, en.2, z)

/-- Scalar branch of `utm2latlon`, spatial.py:117-121. Result (lat, lon). -/
noncomputable def utm2latlon1 (P : Projector) (e n : ℝ) (zone : ℤ) (south : Bool) : ℝ × ℝ :=
  let ll := P.inv zone south e n
  (ll.2, ll.1)

/-- A numeric argument as the code distinguishes it: a scalar (no `__len__`), a
list/array, or a pandas Series with an index. -/
inductive Arg (ι : Type*)
  | scalar (x : ℝ)
  | arr (xs : List ℝ)
  | series (xs : List (ι × ℝ))

/-- The values of an argument that has `__len__`; `none` for a scalar. -/
def Arg.vals? {ι : Type*} : Arg ι → Option (List ℝ)
  | .scalar _ => none
  | .arr xs => some xs
  | .series xs => some (xs.map Prod.snd)

/-- Result kinds: tuple, array of rows, DataFrame with index. -/
inductive Out (ι : Type*) (α : Type*)
  | one (r : α)
  | rows (rs : List α)
  | frame (rs : List (ι × α))

/-- `latlon2utm`, spatial.py:54-75.  A scalar `lat` with a non-scalar `lon`, and a
sized `lat` with a scalar `lon` (`len()` of a float), raise `TypeError`.  An empty Series raises `ValueError`: the empty
array has one dimension, and pandas does not make a frame of three columns from it (line 61). -/
noncomputable def latlon2utm {ι : Type*} (P : Projector) (lat lon : Arg ι) (zone : Option ℤ) :
    Except PyErr (Out ι (ℝ × ℝ × ℤ)) :=
  match lat, lon.vals? with
  | .scalar la, none =>
    match lon with
    | .scalar lo => .ok (.one (latlon2utm1 P la lo zone))
    | _ => .error .typeError
  | .scalar _, some _ => .error .typeError
  | _, none => .error .typeError
  | .arr las, some los =>
    if las.length = los.length then
      .ok (.rows ((las.zip los).map fun p => latlon2utm1 P p.1 p.2 zone))
    else .error .valueError
  | .series las, some los =>
    if las.length = los.length ∧ las ≠ [] then
      .ok (.frame ((las.map Prod.fst).zip
        (((las.map Prod.snd).zip los).map fun p => latlon2utm1 P p.1 p.2 zone)))
    else .error .valueError

/-- `utm2latlon`, spatial.py:108-121 (same dispatch; one zone and hemisphere for all rows). -/
noncomputable def utm2latlon {ι : Type*} (P : Projector) (e n : Arg ι) (zone : ℤ) (south : Bool) :
    Except PyErr (Out ι (ℝ × ℝ)) :=
  match e, n.vals? with
  | .scalar ei, none =>
    match n with
    | .scalar ni => .ok (.one (utm2latlon1 P ei ni zone south))
    | _ => .error .typeError
  | .scalar _, some _ => .error .typeError
  | _, none => .error .typeError
  | .arr es, some ns =>
    if es.length = ns.length then
      .ok (.rows ((es.zip ns).map fun p => utm2latlon1 P p.1 p.2 zone south))
    else .error .valueError
  | .series es, some ns =>
    if es.length = ns.length then
      .ok (.frame ((es.map Prod.fst).zip
        (((es.map Prod.snd).zip ns).map fun p => utm2latlon1 P p.1 p.2 zone south)))
    else .error .valueError

/-- `latlon2lcs` for scalar target and origin, spatial.py:151-177. -/
noncomputable def latlon2lcs (P : Projector) (lat lon olat olon : ℝ) (zone : Option ℤ) : ℝ × ℝ :=
  let utmI := latlon2utm1 P olat olon zone
  let utmT := latlon2utm1 P lat lon zone
  (utmT.1 - utmI.1, utmT.2.1 - utmI.2.1)

/-- `latlon2lcs` for an array of targets and a scalar origin, spatial.py:151-177: an
empty array has `ndim == 1`, so the three-way unpacking at line 168 raises `ValueError`. -/
noncomputable def latlon2lcsArr (P : Projector) (lats lons : List ℝ) (olat olon : ℝ)
    (zone : Option ℤ) : Except PyErr (List ℝ × List ℝ) :=
  if lats.length ≠ lons.length then .error .valueError
  else if lats = [] then .error .valueError
  else
    let utmI := latlon2utm1 P olat olon zone
    let utmT := (lats.zip lons).map fun p => latlon2utm1 P p.1 p.2 zone
    .ok (utmT.map fun r => r.1 - utmI.1, utmT.map fun r => r.2.1 - utmI.2.1)

/-- `lcs2latlon`, spatial.py:207-221.  Note that the origin is projected by
`latlon2utm(origin_lat, origin_lon)` WITHOUT the zone argument (line 213). -/
noncomputable def lcs2latlon (P : Projector) (east north olat olon : ℝ) (zone : Option ℤ) : ℝ × ℝ :=
  let z := zone.getD (calcZone olon)
  let south := decide (olat < 0)
  let o := latlon2utm1 P olat olon none
  utm2latlon1 P (o.1 + east) (o.2.1 + north) z south

/-! ## Flat earth -/

/-- `np.deg2rad`. -/
noncomputable def deg2rad (x : ℝ) : ℝ := x * (Real.pi / 180)

/-- `r_earth`, spatial.py:259. -/
noncomputable def rEarth : ℝ := 6378137

/-- `f`, spatial.py:260. -/
noncomputable def flattening : ℝ := 1 / 298.257223563

/-- `Rn`, spatial.py:262. -/
noncomputable def primeRadius (mu0 : ℝ) : ℝ :=
  rEarth / Real.sqrt (1 - (2 * flattening - flattening ^ 2) * Real.sin mu0 ^ 2)

/-- `Rm`, spatial.py:263. -/
noncomputable def meridRadius (mu0 : ℝ) : ℝ :=
  primeRadius mu0 * ((1 - (2 * flattening - flattening ^ 2)) /
    (1 - (2 * flattening - flattening ^ 2) * Real.sin mu0 ^ 2))

/-- `lla2flat`, spatial.py:252-279, for one point (numpy works elementwise).  `tmerc` is the
external transverse Mercator projection: lat_0, lon_0, lon, lat to (E, N). -/
noncomputable def lla2flat (tmerc : ℝ → ℝ → ℝ → ℝ → ℝ × ℝ) (lat lon latref lonref : ℝ)
    (method : String) : Except PyErr (ℝ × ℝ) :=
  if method = "matlab" then
    let mu0 := deg2rad latref
    let lam0 := deg2rad lonref
    let dmu := deg2rad lat - mu0
    let dlam := deg2rad lon - lam0
    let dN := meridRadius mu0 * dmu
    let dE := primeRadius mu0 * Real.cos mu0 * dlam
    .ok (dE, dN)
  else if method = "tmerc" then .ok (tmerc latref lonref lon lat)
  else .error .valueError

/-! ## Plane vectors -/

/-- `dot`, spatial.py:282-299. -/
def dot (a b : Vec) : ℝ := a.1 * b.1 + a.2 * b.2

/-- `magnitude`, spatial.py:319-336 (both branches compute the same number). -/
noncomputable def magnitude (v : Vec) : ℝ := Real.sqrt (v.1 ^ 2 + v.2 ^ 2)

/-- `unit`, spatial.py:302-316.  The magnitude is zero only for the zero vector, where both
components are `0/0 = nan`: modelled as `none`. -/
noncomputable def unit (v : Vec) : Option Vec :=
  if magnitude v = 0 then none else some (v.1 / magnitude v, v.2 / magnitude v)

/-- `np.arctan2(y, x)`: the principal argument of `x + iy` (0 at the origin, in (-π, π]). -/
noncomputable def arctan2 (y x : ℝ) : ℝ := Complex.arg ⟨x, y⟩

/-- `rect2pol`, spatial.py:339-358. -/
noncomputable def rect2pol (x y : ℝ) : ℝ × ℝ := (magnitude (x, y), arctan2 y x)

/-- `pol2rect`, spatial.py:361-381. -/
noncomputable def pol2rect (r θ : ℝ) : Vec := (r * Real.cos θ, r * Real.sin θ)

/-- `rotate_vector`, spatial.py:384-413, for a single vector. -/
noncomputable def rotate (v : Vec) (θ : ℝ) : Vec :=
  (Real.cos θ * v.1 + -Real.sin θ * v.2, Real.sin θ * v.1 + Real.cos θ * v.2)

/-- `rotate_vector`, spatial.py:384-413, multi-point form: a 2×n array given as a row of x's and
a row of y's (of equal length), multiplied by the 2×2 rotation matrix. -/
noncomputable def rotateMany (xs ys : List ℝ) (θ : ℝ) : List ℝ × List ℝ :=
  (List.zipWith (fun x y => Real.cos θ * x + -Real.sin θ * y) xs ys,
   List.zipWith (fun x y => Real.sin θ * x + Real.cos θ * y) xs ys)

/-- `project_vectors`, spatial.py:416-459, numeric content; `none` = NaN for every row when the
direction is the zero vector. -/
noncomputable def projectVectors (vs : List Vec) (dir : Vec) : List (Option ℝ) :=
  vs.map fun v => (unit dir).map fun u => v.1 * u.1 + v.2 * u.2

/-- `compute_vectors`, spatial.py:462-504: `refpt` is an indexable whose first two entries are
used (fewer than two entries make the subtraction of shapes fail or broadcast; not modelled, the
reference is given by its first two components and the rest). -/
def computeVectors (xs ys : List ℝ) (ref : Vec) (_refExtra : List ℝ) : List Vec :=
  (xs.zip ys).map fun p => (p.1 - ref.1, p.2 - ref.2)

/-- `compute_intersection` for one row, spatial.py:541-552. -/
noncomputable def intersect1 (A B : Vec) : XR × XR :=
  let Amag2 := A.1 ^ 2 + A.2 ^ 2
  let Bmag2 := B.1 ^ 2 + B.2 ^ 2
  (XR.div (Bmag2 * A.2 - B.2 * Amag2) (B.1 * A.2 - A.1 * B.2),
   XR.div (Amag2 * B.1 - A.1 * Bmag2) (B.1 * A.2 - A.1 * B.2))

/-- `compute_intersection`, spatial.py:507-552, all rows (equal numbers of rows). -/
noncomputable def computeIntersection (A B : List Vec) : List (XR × XR) :=
  List.zipWith intersect1 A B

/-! ## Space-time distances -/

/-- `np.reshape(-1, order='F')` of a `rows × cols` array: first index fastest. -/
def flattenF (rows cols : ℕ) (M : ℕ → ℕ → ℝ) : List ℝ :=
  (List.range (rows * cols)).map fun k => M (k % rows) (k / rows)

/-- `xf[:, None] - xf[None, :]` combined for both coordinates into `np.sqrt(dx**2 + dy**2)`,
spatial.py:609-611. -/
noncomputable def pairDist (xf yf : List ℝ) : List (List ℝ) :=
  let pts := xf.zip yf
  pts.map fun p => pts.map fun q => Real.sqrt ((p.1 - q.1) ^ 2 + (p.2 - q.2) ^ 2)

/-- `spacetime_distances`, spatial.py:589-613.  `times` in seconds.  `times[0]` of an empty index
raises `IndexError`; x and y of different lengths make `dx**2 + dy**2` fail to broadcast
(`ValueError`; simplification: numpy would broadcast if one flattened length is 1). -/
noncomputable def spacetimeDistances (x y times : List ℝ) (cs cd : ℝ) :
    Except PyErr (List (List ℝ)) :=
  match times with
  | [] => .error .indexError
  | t0 :: _ =>
    if x.length ≠ y.length then .error .valueError
    else
      let dur := times.map fun t => t - t0
      let xDrift := dur.map fun d => cs * d * Real.cos cd
      let yDrift := dur.map fun d => cs * d * Real.sin cd
      -- X[site][time], then X.T[time][site]
      let X : ℕ → ℕ → ℝ := fun i a => x.getD i 0 - xDrift.getD a 0
      let Y : ℕ → ℕ → ℝ := fun i a => y.getD i 0 - yDrift.getD a 0
      let xf := flattenF times.length x.length (fun a i => X i a)
      let yf := flattenF times.length y.length (fun a i => Y i a)
      .ok (pairDist xf yf)

end SST.Spatial

import Verif.Model.Args

/-! # Independent specifications for kinds of arguments -/

namespace SST.Spec
open SST SST.Args SST.Spatial

/-- What is used of the UTM projection: all zones (of 6 degrees) are alike, and up to 9 degrees from the middle of the zone a place
further east on the same parallel has the larger easting. -/
structure ZonesAlike (P : Projector) : Prop where
  shift : ∀ z s lon lat, P.fwd (z + 1) s (lon + 6) lat = P.fwd z s lon lat
  east : ∀ (z : ℤ) (s : Bool) (lat lon lon' : ℝ), |lat| < 90 → |lon - (6 * z - 183)| ≤ 9 → |lon' - (6 * z - 183)| ≤ 9 → lon < lon' →
    (P.fwd z s lon lat).1 < (P.fwd z s lon' lat).1

end SST.Spec

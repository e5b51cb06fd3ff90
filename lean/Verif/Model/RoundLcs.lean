import Verif.Model.RoundIndex

/-!
# Local coordinates from UTM with rounding

The projector stands for `pyproj` as it computes.
-/

namespace SST.Round
open SST SST.Spatial

variable (A : Arith)

/-- Scalar branch of `latlon2utm`, spatial.py:66-75. -/
noncomputable def latlon2utm1F (P : Projector) (lat lon : ℝ) (zone : Option ℤ) : ℝ × ℝ × ℤ :=
  let z := zone.getD (calcZoneF A lon)
  let en := P.fwd z (decide (lat < 0)) lon lat
  (en.1, en.2, z)

/-- `latlon2lcs` for scalar target and origin, spatial.py:151-177. -/
noncomputable def latlon2lcsF (P : Projector) (lat lon olat olon : ℝ) (zone : Option ℤ) : ℝ × ℝ :=
  let utmI := latlon2utm1F A P olat olon zone
  let utmT := latlon2utm1F A P lat lon zone
  (A.fl (utmT.1 - utmI.1), A.fl (utmT.2.1 - utmI.2.1))

/-- `lcs2latlon`, spatial.py:207-221. -/
noncomputable def lcs2latlonF (P : Projector) (east north olat olon : ℝ) (zone : Option ℤ) : ℝ × ℝ :=
  let z := zone.getD (calcZoneF A olon)
  let o := latlon2utm1F A P olat olon none
  utm2latlon1 P (A.fl (o.1 + east)) (A.fl (o.2.1 + north)) z (decide (olat < 0))

end SST.Round

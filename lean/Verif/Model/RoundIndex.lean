import Verif.Model.Round
import Verif.Model.Spatial
import Verif.Model.Cloud

/-!
# Indices computed from floats, with rounding
-/

namespace SST.Round
open SST SST.Spatial SST.Cloud

variable (A : Arith)

/-- `_calc_zone`, spatial.py:7-23. -/
noncomputable def calcZoneF (lon : ℝ) : ℤ := min (pyInt (A.fl (A.fl (A.fl (lon - (-180)) / 6) + 1))) 60

/-- `latlon2utm` without `zone`, scalar branch, spatial.py:66-75.  The projection is a parameter. -/
noncomputable def latlon2utmF (P : Projector) (lat lon : ℝ) : ℝ × ℝ × ℤ :=
  let z := calcZoneF A lon
  let en := P.fwd z (decide (lat < 0)) lon lat
  (en.1, en.2, z)

/-- `get_positional_ts`, cloudfield.py:541-569: the divisions are the only operations on floats. -/
noncomputable def positionalTsF (f : ℕ → ℕ → ℝ) (m n : ℕ) (pos : ℝ × ℝ) (speed duration : ℝ) : Except PyErr (List ℝ) :=
  if speed = 0 then .error .other
  else
    let x := pyInt (A.fl (pos.1 / speed))
    let y := pyInt (A.fl (pos.2 / speed))
    if y < -n ∨ n ≤ y then .error .indexError
    else
      let a := sliceIdx m x
      let b := sliceIdx m (x + pyInt duration + 1)
      let c := (if y < 0 then y + n else y).toNat
      .ok ((List.range (b - a)).map fun (k : ℕ) => f (a + k) c)

end SST.Round

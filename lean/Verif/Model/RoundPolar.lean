import Verif.Model.RoundVec

/-!
# Polar coordinates with rounding

`at2`, `cs` and `sn` are `np.arctan2`, `np.cos` and `np.sin` as computed.
-/

namespace SST.Round
open SST SST.Spatial

variable (A : Arith)

/-- `rect2pol`, spatial.py:339-358. -/
noncomputable def rect2polF (at2 : ℝ → ℝ → ℝ) (x y : ℝ) : ℝ × ℝ := (magnitudeF A (x, y), at2 y x)

/-- `pol2rect`, spatial.py:361-381. -/
noncomputable def pol2rectF (cs sn : ℝ → ℝ) (r θ : ℝ) : Vec := (A.fl (r * cs θ), A.fl (r * sn θ))

end SST.Round

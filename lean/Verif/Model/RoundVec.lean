import Verif.Model.Round
import Verif.Model.Spatial

/-!
# Plane vectors of `spatial.py` with rounding

The functions of `Verif.Model.Spatial` with every operation on floats rounded.  Matrix products are taken as rounded products and
sums (a fused multiplication and addition would round less).
-/

namespace SST.Round
open SST SST.Spatial

variable (A : Arith)

/-- `dot`, spatial.py:282-299. -/
noncomputable def dotF (a b : Vec) : ℝ := A.fl (A.fl (a.1 * b.1) + A.fl (a.2 * b.2))

/-- `magnitude`, spatial.py:319-336. -/
noncomputable def magnitudeF (v : Vec) : ℝ := A.fl (Real.sqrt (A.fl (A.fl (v.1 ^ 2) + A.fl (v.2 ^ 2))))

/-- `unit`, spatial.py:302-316. -/
noncomputable def unitF (v : Vec) : Option Vec :=
  if magnitudeF A v = 0 then none else some (A.fl (v.1 / magnitudeF A v), A.fl (v.2 / magnitudeF A v))

/-- `project_vectors`, spatial.py:416-459, for one row. -/
noncomputable def projectF (v dir : Vec) : Option ℝ := (unitF A dir).map fun u => dotF A v u

/-- `compute_vectors`, spatial.py:462-504, for one point. -/
noncomputable def vectorF (p ref : Vec) : Vec := (A.fl (p.1 - ref.1), A.fl (p.2 - ref.2))

/-- `rotate_vector`, spatial.py:384-413, for a single vector; `c` and `s` are what `np.cos` and `np.sin` return for the angle. -/
noncomputable def rotateF (c s : ℝ) (v : Vec) : Vec := (dotF A (c, -s) v, dotF A (s, c) v)

/-- `compute_intersection` for one row, spatial.py:541-552. -/
noncomputable def intersect1F (a b : Vec) : XR × XR :=
  let Amag2 := A.fl (A.fl (a.1 ^ 2) + A.fl (a.2 ^ 2))
  let Bmag2 := A.fl (A.fl (b.1 ^ 2) + A.fl (b.2 ^ 2))
  let den := A.fl (A.fl (b.1 * a.2) - A.fl (a.1 * b.2))
  let quot (n : ℝ) : XR := match XR.div n den with
    | .fin v => .fin (A.fl v)
    | v => v
  (quot (A.fl (A.fl (Bmag2 * a.2) - A.fl (b.2 * Amag2))), quot (A.fl (A.fl (Amag2 * b.1) - A.fl (a.1 * Bmag2))))

end SST.Round

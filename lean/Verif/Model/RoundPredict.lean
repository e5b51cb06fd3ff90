import Verif.Model.RoundVec
import Verif.Model.Field

/-!
# `compute_predicted_position` with rounding

From the delays and the selected rows on (field.py:100-114 and 155-169).  Which rows are selected is left open.
-/

namespace SST.Round
open SST SST.Field

variable (A : Arith)

/-- `error_dist` of one row, field.py:103-114: the delay as a distance less the distance in the plan.  Changes of sign are exact. -/
noncomputable def errorDistF (vec ref pos : Vec) (delay : ℝ) : Option ℝ :=
  let w := vectorF A pos ref
  (projectF A (-w.1, -w.2) vec).map fun plan => A.fl (A.fl (-delay * magnitudeF A vec) - plan)

/-- `np.mean` of the column `error_dist` of the selected rows, field.py:156-157; rows with NaN are skipped. -/
noncomputable def meanErrorF (vec ref : Vec) (rows : List (Vec × Option ℝ)) : Option ℝ :=
  meanOF A (rows.filterMap fun r => r.2.bind fun (d : ℝ) => errorDistF A vec ref r.1 d)

/-- Adding a number to a result that may be infinite or NaN. -/
noncomputable def addF (x : XR) (r : ℝ) : XR := match x with
  | .fin v => .fin (A.fl (v + r))
  | v => v

/-- The intersection and shift, field.py:161-169.  `dir` gives what `np.cos` and `np.sin` return for the angle of a vector found by `np.arctan2`. -/
noncomputable def positionFromF (dir : Vec → Vec) (ea eb : Option ℝ) (va vb ref : Vec) : XR × XR :=
  match ea, eb with
  | some a, some b =>
    let c := intersect1F A (A.fl (a * (dir va).1), A.fl (a * (dir va).2)) (A.fl (b * (dir vb).1), A.fl (b * (dir vb).2))
    (addF A c.1 ref.1, addF A c.2 ref.2)
  | _, _ => (.nan, .nan)

/-- The predicted position from the selected rows (position and delay) of the two data sets. -/
noncomputable def predictF (dir : Vec → Vec) (ref va vb : Vec) (rows1 rows2 : List (Vec × Option ℝ)) : XR × XR :=
  positionFromF A dir (meanErrorF A va ref rows1) (meanErrorF A vb ref rows2) va vb ref

end SST.Round

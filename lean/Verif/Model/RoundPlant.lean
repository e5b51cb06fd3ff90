import Verif.Model.Round
import Verif.Model.Filters

/-!
# The profile of a plant with rounding
-/

namespace SST.Round
open SST SST.Filters

variable (A : Arith)

/-- `plant[inds] = 1`, signalproc.py:944-946. -/
noncomputable def markSquareF (w : ℝ) (xs plant : List ℝ) (c : ℝ) : List ℝ :=
  List.zipWith (fun x p => if A.fl (c - A.fl (w / 2)) ≤ x ∧ x < A.fl (c + A.fl (w / 2)) then 1 else p) xs plant

/-- `get_1d_plant`, signalproc.py:883-959, with shape 'square' and the default `dx = 1`, for which `x_vec` consists of whole numbers and is exact. -/
noncomputable def get1dPlantF (centers : List ℝ) (refCenter : ℝ) (width : Option ℝ) (xmax : ℝ) : List ℝ × List ℝ :=
  let w := width.getD 1
  let cs := centers.map fun (c : ℝ) => A.fl (c - refCenter)
  let xs := xVec xmax 1
  (cs.foldl (markSquareF A w xs) (xs.map fun _ => (0 : ℝ)), xs)

end SST.Round

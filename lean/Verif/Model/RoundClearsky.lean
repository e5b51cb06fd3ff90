import Verif.Model.Round

/-!
# The clear-sky index with rounding
-/

namespace SST.Irradiance
open SST SST.Round

/-- `pvlib.irradiance.clearsky_index` for one sample (external, see `pvlibClearsky`): only the quotient is rounded. -/
noncomputable def pvlibClearskyF (A : Arith) (ghi cs : Option ℝ) (mx : ℝ) : Option ℝ :=
  ghi.bind fun (g : ℝ) => cs.map fun (c : ℝ) => min (max (if c = 0 then 0 else A.fl (g / c)) 0) mx

/-- `clearsky_index`, irradiance.py:6-38. -/
noncomputable def clearskyIndexF (A : Arith) (isFrame : Bool) (ghi : List (List (Option ℝ))) (cs : List (Option ℝ)) (mx : ℝ) : List (List (Option ℝ)) :=
  ghi.map fun col => List.zipWith (fun g c => pvlibClearskyF A g c (if isFrame then 2 else mx)) col cs

end SST.Irradiance

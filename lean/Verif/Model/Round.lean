import Verif.Model.Stats

/-!
# `stats.py` with rounding

The functions of `Verif.Model.Stats` again, with every operation on floats rounded.  How a sum is ordered is left to
`Arith.sum`.  Differences of time stamps are integers (nanoseconds) and not rounded.
-/

namespace SST.Round
open SST SST.Stats

/-- Rounding of one operation, and `sum` of a list of floats. -/
structure Arith where
  fl : ℝ → ℝ
  sum : List ℝ → ℝ

variable (A : Arith)

/-- `a - b` with NaN. -/
noncomputable def osubF (a b : Option ℝ) : Option ℝ := a.bind fun (x : ℝ) => b.map fun (y : ℝ) => A.fl (x - y)

/-- `np.mean` or `Series.mean()`: sum divided by the number. -/
noncomputable def meanOF (l : List ℝ) : Option ℝ := if l = [] then none else some (A.fl (A.sum l / l.length))

/-- `np.mean` on an array (a NaN makes it NaN) or on a Series (NaN left out). -/
noncomputable def meanOfF (isSeries : Bool) (l : List (Option ℝ)) : Option ℝ :=
  if isSeries = false ∧ none ∈ l then none else meanOF A (l.filterMap id)

/-- `bias_error`, stats.py:131-149. -/
noncomputable def biasErrorF (b e : List (Option ℝ)) : List (Option ℝ) := List.zipWith (osubF A) e b

/-- `squared_error`, stats.py:48-65. -/
noncomputable def squaredErrorF (b e : List (Option ℝ)) : List (Option ℝ) := (biasErrorF A b e).map (Option.map fun (d : ℝ) => A.fl (d ^ 2))

/-- `absolute_error`, stats.py:89-107: `np.abs` is exact. -/
noncomputable def absoluteErrorF (b e : List (Option ℝ)) : List (Option ℝ) := (biasErrorF A b e).map (Option.map fun (d : ℝ) => |d|)

/-- `mse`, stats.py:27-45. -/
noncomputable def mseF (isSeries : Bool) (b e : List (Option ℝ)) : Option ℝ := meanOfF A isSeries (squaredErrorF A b e)

/-- `rmse`, stats.py:5-24. -/
noncomputable def rmseF (isSeries : Bool) (b e : List (Option ℝ)) : Option ℝ := (mseF A isSeries b e).map fun v => A.fl (Real.sqrt v)

/-- `mae`, stats.py:68-86. -/
noncomputable def maeF (isSeries : Bool) (b e : List (Option ℝ)) : Option ℝ := meanOfF A isSeries (absoluteErrorF A b e)

/-- `mbe`, stats.py:110-128. -/
noncomputable def mbeF (isSeries : Bool) (b e : List (Option ℝ)) : Option ℝ := meanOfF A isSeries (biasErrorF A b e)

/-- `series.diff(tau)`. -/
noncomputable def diffsF (s : List (Option ℝ)) (tau : ℕ) : List (Option ℝ) :=
  List.replicate (min tau s.length) none ++ List.zipWith (osubF A) (s.drop tau) s

/-- `np.abs(series.diff(tau)).sum(axis=0)`, stats.py:304. -/
noncomputable def darrRawF (s : List (Option ℝ)) (tau : ℕ) : ℝ := A.sum (((diffsF A s tau).filterMap id).map fun (v : ℝ) => |v|)

/-- `np.sqrt(series.diff()**2 + dt**2).sum(axis=0)`, stats.py:247-248. -/
noncomputable def pathLengthF (s : List (Option ℝ)) (dt : ℝ) : ℝ :=
  A.sum (((diffsF A s 1).filterMap id).map fun (v : ℝ) => A.fl (Real.sqrt (A.fl (A.fl (v ^ 2) + A.fl (dt ^ 2)))))

/-- The number part of `variability_index`, stats.py:246-252. -/
noncomputable def viRawF (t : List ℝ) (g c : List (Option ℝ)) (norm : Bool) : XR :=
  match medianStep t with
  | none => .nan
  | some step =>
    let dt := A.fl (step / 60)
    match XR.div (pathLengthF A g dt) (pathLengthF A c dt), norm with
    | .fin v, true => .fin (A.fl (A.fl v * A.fl (Real.sqrt dt)))
    | .fin v, false => .fin (A.fl v)
    | v, _ => v

end SST.Round
